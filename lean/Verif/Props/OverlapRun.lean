import Verif.Props.Overlap
import Verif.Props.LatentOne

/-! Property theorems C168-C171: the loop of `group_lasso_overlap`
(regain/linear_model/group_lasso_overlap_.py:91-180). -/

namespace Verif.Props

open Matrix Verif.Model Verif.Spec Verif.Lemmas

set_option autoImplicit false
set_option linter.unusedSectionVars false

variable {m p : ℕ}

/-- One value per feature instead of one per group and position. -/
structure FeatState (p : ℕ) where
  x : Fin p → ℝ
  z : Fin p → ℝ
  y : Fin p → ℝ

/-- The mean of `k` equal copies. -/
noncomputable def featMean (D : ℕ → ℕ) (v : Fin p → ℝ) (i : Fin p) : ℝ := if D i = 0 then 0 else v i

/-- The pass on features, with the number of groups of each. -/
noncomputable def featStep (A : Matrix (Fin m) (Fin p) ℝ) (b : Fin m → ℝ) (lamda rho : ℝ) (D : ℕ → ℕ)
    (inv : Matrix (Fin p) (Fin p) ℝ) (s : FeatState p) : FeatState p :=
  let x := fun i => softScalar (s.x i - s.y i / rho) (lamda / rho)
  let z := inv *ᵥ (Aᵀ *ᵥ b + Matrix.diagonal (fun i : Fin p => (D i : ℝ)) *ᵥ
    (featMean D s.y + rho • featMean D x))
  ⟨x, z, fun i => s.y i + rho * (x i - z i)⟩

/-- The copies of every group. -/
def spread (groups : List (List ℕ)) (s : FeatState p) : OverlapState p :=
  ⟨zGroup groups s.x, s.z, zGroup groups s.y⟩

theorem softScalar_zero' (t : ℝ) : softScalar 0 t = 0 := by
  unfold softScalar npSign
  simp

theorem pStar_spread (groups : List (List ℕ)) (v : Fin p → ℝ) (i : Fin p) :
    pStar groups (zGroup groups v) i = featMean (groupCount groups) v i := by
  unfold featMean
  split_ifs with h
  · exact (C48_consensus_mean _ _ _).2 h
  · have hm : (i : ℕ) ∈ groups.flatten := by
      by_contra hc
      refine h ?_
      unfold groupCount
      rw [List.length_eq_zero_iff, List.filter_eq_nil_iff]
      intro g hg hi
      rw [List.mem_range] at hg
      rw [List.getD_eq_getElem _ _ hg, decide_eq_true_eq] at hi
      exact hc (List.mem_flatten.mpr ⟨_, List.getElem_mem hg, hi⟩)
    have := C48_agreement groups (fun k => if h : k < p then v ⟨k, h⟩ else 0) hm
    simp only [i.isLt, dif_pos] at this
    exact this

theorem overlapUpdate_spread (A : Matrix (Fin m) (Fin p) ℝ) (b : Fin m → ℝ) (lamda rho : ℝ)
    (groups : List (List ℕ)) (inv : Matrix (Fin p) (Fin p) ℝ) (s : FeatState p) :
    overlapUpdate A b lamda rho groups inv (spread groups s) =
      spread groups (featStep A b lamda rho (groupCount groups) inv s) := by
  have hx : (fun g j => softScalar (zGroup groups s.x g j - zGroup groups s.y g j / rho) (lamda / rho)) =
      zGroup groups fun i => softScalar (s.x i - s.y i / rho) (lamda / rho) := by
    funext g j
    unfold zGroup
    simp only
    split_ifs with h
    · rfl
    · simp [softScalar_zero']
  unfold overlapUpdate
  simp only [spread, hx, pStar_spread, C48_D_function]
  refine OverlapState.mk.injEq .. ▸ ⟨rfl, rfl, ?_⟩
  funext g j
  unfold zGroup
  simp only
  split_ifs with h
  · rfl
  · simp [softScalar_zero']

/-- The entry of `hist` in terms of features, without the objective. -/
noncomputable def featHist (a : OverlapArgs m p) (D : ℕ → ℕ) (inv : Matrix (Fin p) (Fin p) ℝ)
    (s : FeatState p) (obj : ℝ) : LassoHist :=
  let s' := featStep a.A a.b a.lamda a.rho D inv s
  { obj := obj
    rnorm := npNorm (featMean D s'.x - s'.z)
    snorm := npNorm ((-a.rho) • (s'.z - s.z))
    ePri := Real.sqrt p * a.tol + a.rtol * max (npNorm (featMean D s'.x)) (npNorm (-s'.z))
    eDual := Real.sqrt p * a.tol + a.rtol * npNorm (a.rho • featMean D s.y) }

/-- The loop on features. -/
noncomputable def featBody (a : OverlapArgs m p) (D : ℕ → ℕ) (inv : Matrix (Fin p) (Fin p) ℝ) (_ : ℕ)
    (s : FeatState p × ℕ) : (FeatState p × ℕ) × FeatState p × Bool :=
  let s' := featStep a.A a.b a.lamda a.rho D inv s.1
  if lassoStop (featHist a D inv s.1 0) then
    ((s', if 10 < s.2 then s.2 else s.2 + 1), s.1, decide (10 < s.2))
  else ((s', 0), s.1, false)

def featInit (p : ℕ) : FeatState p × ℕ := (⟨0, 0, 0⟩, 0)

/-- The entry of `hist` a pass from a feature state produces. -/
noncomputable def featEntry (a : OverlapArgs m p) (inv : Matrix (Fin p) (Fin p) ℝ) (s : FeatState p) :
    LassoHist :=
  featHist a (groupCount a.groups) inv s (overlapObjective a.A a.b a.lamda a.groups
    (zGroup a.groups (featStep a.A a.b a.lamda a.rho (groupCount a.groups) inv s).x)
    (featStep a.A a.b a.lamda a.rho (groupCount a.groups) inv s).z)

theorem overlapBody_spread (a : OverlapArgs m p) (inv : Matrix (Fin p) (Fin p) ℝ) (it : ℕ)
    (s : FeatState p × ℕ) :
    overlapBody a inv it (spread a.groups s.1, s.2) =
      ((spread a.groups (featBody a (groupCount a.groups) inv it s).1.1,
        (featBody a (groupCount a.groups) inv it s).1.2),
        featEntry a inv (featBody a (groupCount a.groups) inv it s).2.1,
        (featBody a (groupCount a.groups) inv it s).2.2) := by
  have hstop : lassoStop (featEntry a inv s.1) = lassoStop (featHist a (groupCount a.groups) inv s.1 0) := rfl
  have hh : ∀ c : ℝ, c = overlapObjective a.A a.b a.lamda a.groups
    (zGroup a.groups (featStep a.A a.b a.lamda a.rho (groupCount a.groups) inv s.1).x)
    (featStep a.A a.b a.lamda a.rho (groupCount a.groups) inv s.1).z →
    featHist a (groupCount a.groups) inv s.1 c = featEntry a inv s.1 := fun c hc => by rw [hc]; rfl
  unfold overlapBody featBody
  simp only [overlapUpdate_spread]
  have e1 : (fun i : Fin p => pStar a.groups
      (spread a.groups (featStep a.A a.b a.lamda a.rho (groupCount a.groups) inv s.1)).x i) =
      featMean (groupCount a.groups) (featStep a.A a.b a.lamda a.rho (groupCount a.groups) inv s.1).x :=
    funext fun i => pStar_spread _ _ _
  have e2 : (fun i : Fin p => pStar a.groups (spread a.groups s.1).y i) =
      featMean (groupCount a.groups) s.1.y := funext fun i => pStar_spread _ _ _
  simp only [e1, e2]
  rw [← hstop]
  by_cases h : lassoStop (featEntry a inv s.1) = true
  · rw [if_pos h, if_pos (by exact h)]
    rfl
  · rw [if_neg h, if_neg (by exact h)]
    rfl

theorem overlap_loop (a : OverlapArgs m p) (inv : Matrix (Fin p) (Fin p) ℝ) :
    runLoop (overlapBody a inv) a.maxIter (overlapInit p) =
      ⟨(spread a.groups (runLoop (featBody a (groupCount a.groups) inv) a.maxIter (featInit p)).state.1,
        (runLoop (featBody a (groupCount a.groups) inv) a.maxIter (featInit p)).state.2),
        (runLoop (featBody a (groupCount a.groups) inv) a.maxIter (featInit p)).checks.map (featEntry a inv),
        (runLoop (featBody a (groupCount a.groups) inv) a.maxIter (featInit p)).broke,
        (runLoop (featBody a (groupCount a.groups) inv) a.maxIter (featInit p)).lastIter⟩ := by
  have h0 : overlapInit p = (spread a.groups (featInit p).1, (featInit p).2) := by
    unfold overlapInit featInit spread
    have : (fun _ _ => (0 : ℝ)) = zGroup a.groups (0 : Fin p → ℝ) := by
      funext g j; unfold zGroup; simp
    rw [this]
  rw [h0]
  exact runLoop_map (fun s : FeatState p × ℕ => (spread a.groups s.1, s.2)) (featEntry a inv) (fun _ => True)
    (fun _ _ _ => trivial) (fun it s _ => overlapBody_spread a inv it s) a.maxIter trivial

/-! ### Only the number of groups matters -/

theorem featHist_same (a : OverlapArgs m p) (groups' : List (List ℕ)) (D : ℕ → ℕ)
    (inv : Matrix (Fin p) (Fin p) ℝ) (s : FeatState p) (c : ℝ) :
    featHist { a with groups := groups' } D inv s c = featHist a D inv s c := rfl

theorem featBody_same (a : OverlapArgs m p) {groups' : List (List ℕ)}
    (h : ∀ i : Fin p, groupCount groups' i = groupCount a.groups i) (inv : Matrix (Fin p) (Fin p) ℝ) :
    featBody { a with groups := groups' } (groupCount groups') inv =
      featBody a (groupCount a.groups) inv := by
  have hm : ∀ v : Fin p → ℝ, featMean (groupCount groups') v = featMean (groupCount a.groups) v := by
    intro v; funext i; unfold featMean; rw [h i]
  have hs : ∀ s, featStep a.A a.b a.lamda a.rho (groupCount groups') inv s =
      featStep a.A a.b a.lamda a.rho (groupCount a.groups) inv s := by
    intro s; unfold featStep; simp only [hm, h]
  have hh : ∀ s c, featHist a (groupCount groups') inv s c = featHist a (groupCount a.groups) inv s c := by
    intro s c; unfold featHist; simp only [hs, hm]
  funext it s
  unfold featBody
  simp only [featHist_same, hs, hh]

/-- **C168** `group_lasso_overlap` sees the groups only through the number of groups of each feature: for two
lists of groups with the same numbers the calls return the same coefficients, the same `k`, and histories with
the same residuals and tolerances. In particular splitting every group into single features changes nothing. -/
theorem C168_counts_only (npInv : Matrix (Fin p) (Fin p) ℝ → Matrix (Fin p) (Fin p) ℝ) (a : OverlapArgs m p)
    {groups' : List (List ℕ)} (h : ∀ i : Fin p, groupCount groups' i = groupCount a.groups i)
    {z z' : Fin p → ℝ} {hist hist' : List LassoHist} {k k' : ℕ} {rag rag' : Bool}
    (hr : groupLassoOverlap rag npInv a = .ok (z, hist, k))
    (hr' : groupLassoOverlap rag' npInv { a with groups := groups' } = .ok (z', hist', k')) :
    z' = z ∧ k' = k ∧ hist'.map (fun e => (e.rnorm, e.snorm, e.ePri, e.eDual)) =
      hist.map fun e => (e.rnorm, e.snorm, e.ePri, e.eDual) := by
  have hg : overlapGram { a with groups := groups' } = overlapGram a := by
    unfold overlapGram
    simp only [C48_D_function, h]
  unfold groupLassoOverlap at hr hr'
  simp only [hg] at hr'
  simp only [overlap_loop] at hr hr'
  simp only [featBody_same a h] at hr'
  generalize hR : runLoop (featBody a (groupCount a.groups) (npInv (overlapGram a))) a.maxIter (featInit p) = R
    at hr hr'
  cases hl : R.lastIter with
  | none => rw [hl] at hr; exact absurd hr (by simp)
  | some j =>
    rw [hl] at hr hr'
    simp only at hr hr'
    split_ifs at hr hr'
    · obtain ⟨rfl, h2⟩ := Prod.mk.inj (Except.ok.inj hr)
      obtain ⟨rfl, rfl⟩ := Prod.mk.inj h2
      obtain ⟨rfl, h2'⟩ := Prod.mk.inj (Except.ok.inj hr')
      obtain ⟨rfl, rfl⟩ := Prod.mk.inj h2'
      refine ⟨rfl, rfl, ?_⟩
      rw [List.map_map, List.map_map]
      refine List.map_congr_left fun s _ => ?_
      have hm : ∀ v : Fin p → ℝ, featMean (groupCount groups') v = featMean (groupCount a.groups) v := by
        intro v; funext i; unfold featMean; rw [h i]
      have hs : featStep a.A a.b a.lamda a.rho (groupCount groups') (npInv (overlapGram a)) s =
          featStep a.A a.b a.lamda a.rho (groupCount a.groups) (npInv (overlapGram a)) s := by
        unfold featStep; simp only [hm, h]
      show (_, _, _, _) = (_, _, _, _)
      simp only [featEntry, featHist, hs, hm]

/-! ### Outcome -/

/-- The passes `k - 11, ..., k` of a run that stopped early met the test. -/
theorem C169_outcome (rag : Bool) (npInv : Matrix (Fin p) (Fin p) ℝ → Matrix (Fin p) (Fin p) ℝ)
    (a : OverlapArgs m p) {z : Fin p → ℝ} {hist : List LassoHist} {k : ℕ}
    (hr : groupLassoOverlap rag npInv a = .ok (z, hist, k)) :
    hist.length = k + 1 ∧ k + 1 ≤ a.maxIter ∧
      (k + 1 < a.maxIter → 11 ≤ k ∧ ∀ j, k - 11 ≤ j → j ≤ k → ∃ e, hist[j]? = some e ∧
        e.rnorm < e.ePri ∧ e.snorm < e.eDual) := by
  unfold groupLassoOverlap at hr
  set body := overlapBody a (npInv (overlapGram a)) with hbody
  -- the counter
  have hcount : ∀ i, (stateAt body (overlapInit p) i).2 ≤ i ∧ ∀ j, i - (stateAt body (overlapInit p) i).2 ≤ j →
      j < i → lassoStop (checkAt body (overlapInit p) j) = true := by
    intro i
    induction i with
    | zero => exact ⟨le_rfl, fun j _ h => absurd h (by omega)⟩
    | succ i ih =>
      obtain ⟨h1, h2⟩ := ih
      have hst : stateAt body (overlapInit p) (i + 1) = (body i (stateAt body (overlapInit p) i)).1 := rfl
      have hck : checkAt body (overlapInit p) i = (body i (stateAt body (overlapInit p) i)).2.1 := rfl
      set s := stateAt body (overlapInit p) i with hs
      rw [hst]
      by_cases hg : lassoStop (checkAt body (overlapInit p) i) = true
      · have e : (body i s).1.2 = if 10 < s.2 then s.2 else s.2 + 1 := by
          rw [hck] at hg
          simp only [hbody, overlapBody] at hg ⊢
          split_ifs at hg ⊢ <;> simp_all
        rw [e]
        have hle : (if 10 < s.2 then s.2 else s.2 + 1) ≤ s.2 + 1 := by split_ifs <;> omega
        refine ⟨by omega, fun j hj1 hj2 => ?_⟩
        rcases Nat.lt_succ_iff_lt_or_eq.mp hj2 with h | h
        · exact h2 j (by omega) h
        · rw [h]; exact hg
      · have e : (body i s).1.2 = 0 := by
          rw [hck] at hg
          simp only [hbody, overlapBody] at hg ⊢
          split_ifs at hg ⊢ <;> simp_all
        rw [e]
        exact ⟨by omega, fun j hj1 hj2 => absurd hj2 (by omega)⟩
  rcases runLoop_spec body a.maxIter (overlapInit p) with ⟨j, hj, -, hstop, hrun⟩ | ⟨-, hrun⟩
  · simp only [hrun] at hr
    split_ifs at hr
    obtain ⟨-, h2⟩ := Prod.mk.inj (Except.ok.inj hr)
    obtain ⟨rfl, rfl⟩ := Prod.mk.inj h2
    refine ⟨by simp, hj, fun _ => ?_⟩
    obtain ⟨h1, h2⟩ := hcount j
    have hb : (body j (stateAt body (overlapInit p) j)).2.2 = true := hstop
    have hck : checkAt body (overlapInit p) j = (body j (stateAt body (overlapInit p) j)).2.1 := rfl
    have h3 : lassoStop (checkAt body (overlapInit p) j) = true ∧ 10 < (stateAt body (overlapInit p) j).2 := by
      rw [hck]
      simp only [hbody, overlapBody] at hb ⊢
      split_ifs at hb ⊢ <;> simp_all
    refine ⟨by omega, fun i hi1 hi2 => ⟨checkAt body (overlapInit p) i, ?_, ?_⟩⟩
    · rw [List.getElem?_map, List.getElem?_range (by omega)]
      rfl
    · have : lassoStop (checkAt body (overlapInit p) i) = true := by
        rcases hi2.lt_or_eq with h | h
        · exact h2 i (by omega) h
        · rw [h]; exact h3.1
      unfold lassoStop at this
      exact of_decide_eq_true this
  · simp only [hrun] at hr
    by_cases h0 : a.maxIter = 0
    · simp only [h0, if_true] at hr
      exact absurd hr (by simp)
    · simp only [if_neg h0] at hr
      split_ifs at hr
      obtain ⟨-, h2⟩ := Prod.mk.inj (Except.ok.inj hr)
      obtain ⟨rfl, rfl⟩ := Prod.mk.inj h2
      exact ⟨by simp; omega, by omega, fun h => absurd h (by omega)⟩

/-! ### Certificate -/

theorem abs_sub_softScalar {l : ℝ} (hl : 0 ≤ l) (c : ℝ) : |c - softScalar c l| ≤ l := by
  rcases le_or_gt |c| l with h | h
  · rw [softScalar_of_abs_le h, sub_zero]; exact h
  · have h1 := softScalar_subgrad hl c (softScalar c l + 1)
    have h2 := softScalar_subgrad hl c (softScalar c l - 1)
    have h3 := abs_add_le (softScalar c l) 1
    have h4 := abs_sub (softScalar c l) 1
    rw [abs_one] at h3 h4
    rw [abs_le]
    constructor <;> nlinarith

theorem featStep_grad (A : Matrix (Fin m) (Fin p) ℝ) (b : Fin m → ℝ) (lamda : ℝ) {rho : ℝ} {D : ℕ → ℕ}
    {inv : Matrix (Fin p) (Fin p) ℝ}
    (hinv : (Aᵀ * A + rho • diagonal fun i : Fin p => (D i : ℝ)) * inv = 1) (s : FeatState p) (i : Fin p) :
    (Aᵀ *ᵥ (A *ᵥ (featStep A b lamda rho D inv s).z - b)) i = D i * (featStep A b lamda rho D inv s).y i := by
  set s' := featStep A b lamda rho D inv s with hs'
  have h1 : s'.z = inv *ᵥ (Aᵀ *ᵥ b + diagonal (fun i : Fin p => (D i : ℝ)) *ᵥ
    (featMean D s.y + rho • featMean D s'.x)) := rfl
  have h2 := congrArg (fun v => (Aᵀ * A + rho • diagonal fun i : Fin p => (D i : ℝ)) *ᵥ v) h1
  simp only [mulVec_mulVec, hinv, one_mulVec] at h2
  rw [add_mulVec, ← mulVec_mulVec, smul_mulVec] at h2
  have h3 := congrFun h2 i
  simp only [Pi.add_apply, Pi.smul_apply, smul_eq_mul, mulVec_diagonal] at h3
  have hm : ∀ v : Fin p → ℝ, (D i : ℝ) * featMean D v i = D i * v i := by
    intro v
    unfold featMean
    split_ifs with h
    · rw [h]; simp
    · rfl
  have hx := hm s'.x
  have hy' := hm s.y
  rw [mulVec_sub, Pi.sub_apply]
  have h4 : s'.y i = s.y i + rho * (s'.x i - s'.z i) := rfl
  rw [h4]
  linear_combination h3 + hy' + rho * hx

theorem featStep_sub (A : Matrix (Fin m) (Fin p) ℝ) (b : Fin m → ℝ) {lamda rho : ℝ} (hr : 0 < rho)
    (hl : 0 ≤ lamda) (D : ℕ → ℕ) (inv : Matrix (Fin p) (Fin p) ℝ) (s : FeatState p) (i : Fin p) (t : ℝ) :
    lamda * |(featStep A b lamda rho D inv s).x i| +
      (rho * (s.x i - (featStep A b lamda rho D inv s).z i) - (featStep A b lamda rho D inv s).y i) *
        (t - (featStep A b lamda rho D inv s).x i) ≤ lamda * |t| ∧
    |(featStep A b lamda rho D inv s).y i| ≤ lamda + rho * |s.x i - (featStep A b lamda rho D inv s).z i| := by
  set s' := featStep A b lamda rho D inv s with hs'
  have hx : s'.x i = softScalar (s.x i - s.y i / rho) (lamda / rho) := rfl
  have hy : s'.y i = s.y i + rho * (s'.x i - s'.z i) := rfl
  have hd : 0 ≤ lamda / rho := div_nonneg hl hr.le
  have h1 := mul_le_mul_of_nonneg_left (softScalar_subgrad hd (s.x i - s.y i / rho) t) hr.le
  have h2 := mul_le_mul_of_nonneg_left (abs_sub_softScalar hd (s.x i - s.y i / rho)) hr.le
  rw [← hx] at h1 h2
  have e : rho * (s.x i - s.y i / rho - s'.x i) = rho * (s.x i - s'.z i) - s'.y i := by
    rw [hy]; field_simp; ring
  constructor
  · have e1 : rho * (lamda / rho * |s'.x i| + (s.x i - s.y i / rho - s'.x i) * (t - s'.x i)) =
        lamda * |s'.x i| + rho * (s.x i - s.y i / rho - s'.x i) * (t - s'.x i) := by field_simp
    have e2 : rho * (lamda / rho * |t|) = lamda * |t| := by field_simp
    rw [e1, e2, e] at h1
    exact h1
  · have e3 : rho * (lamda / rho) = lamda := by field_simp
    rw [e3, ← abs_of_pos hr, ← abs_mul, abs_of_pos hr, e] at h2
    have h3 := abs_sub_abs_le_abs_sub (s'.y i) (rho * (s.x i - s'.z i))
    rw [abs_sub_comm, abs_mul, abs_of_pos hr] at h3
    have h4 := abs_sub_abs_le_abs_sub (s'.y i) (rho * (s.x i - s'.z i))
    rw [abs_sub_comm (s'.y i), abs_mul, abs_of_pos hr] at h4
    linarith

/-- Distance of the loss at two points. -/
theorem loss_convex (A : Matrix (Fin m) (Fin p) ℝ) (b : Fin m → ℝ) (z w : Fin p → ℝ) :
    1 / 2 * (∑ i, ((A *ᵥ z) i - b i) ^ 2) + ∑ i, (Aᵀ *ᵥ (A *ᵥ z - b)) i * (w i - z i) ≤
      1 / 2 * ∑ i, ((A *ᵥ w) i - b i) ^ 2 := by
  have e : ∑ i, (Aᵀ *ᵥ (A *ᵥ z - b)) i * (w i - z i) =
      ∑ k, ((A *ᵥ z) k - b k) * ((A *ᵥ w) k - (A *ᵥ z) k) := by
    have h1 : (Aᵀ *ᵥ (A *ᵥ z - b)) ⬝ᵥ (w - z) = (A *ᵥ z - b) ⬝ᵥ (A *ᵥ (w - z)) := by
      rw [mulVec_transpose, ← dotProduct_mulVec]
    rw [mulVec_sub A w z] at h1
    exact h1
  rw [e, Finset.mul_sum, Finset.mul_sum, ← Finset.sum_add_distrib]
  refine Finset.sum_le_sum fun k _ => ?_
  nlinarith [sq_nonneg ((A *ᵥ w) k - (A *ᵥ z) k)]

/-- One pass brings the objective of the weighted lasso within the residuals of any other value. -/
theorem featStep_gap (A : Matrix (Fin m) (Fin p) ℝ) (b : Fin m → ℝ) {lamda rho : ℝ} (hr : 0 < rho)
    (hl : 0 ≤ lamda) {D : ℕ → ℕ} {inv : Matrix (Fin p) (Fin p) ℝ}
    (hinv : (Aᵀ * A + rho • diagonal fun i : Fin p => (D i : ℝ)) * inv = 1) (s : FeatState p)
    (w : Fin p → ℝ) :
    weightedLassoObj A b lamda (fun i => D i) (featStep A b lamda rho D inv s).z ≤
      weightedLassoObj A b lamda (fun i => D i) w + ∑ i : Fin p, (D i : ℝ) *
        ((2 * lamda + rho * |s.x i - (featStep A b lamda rho D inv s).z i|) *
            |(featStep A b lamda rho D inv s).x i - (featStep A b lamda rho D inv s).z i| +
          rho * |s.x i - (featStep A b lamda rho D inv s).z i| *
            |w i - (featStep A b lamda rho D inv s).x i|) := by
  have hloss := loss_convex A b (featStep A b lamda rho D inv s).z w
  simp only [featStep_grad A b lamda hinv s] at hloss
  have hsub := featStep_sub A b hr hl D inv s
  set s' := featStep A b lamda rho D inv s with hs'
  unfold weightedLassoObj
  have key : ∀ i : Fin p, lamda * (D i * |s'.z i|) ≤ lamda * (D i * |w i|) + D i * s'.y i * (w i - s'.z i) +
      D i * ((2 * lamda + rho * |s.x i - s'.z i|) * |s'.x i - s'.z i| +
        rho * |s.x i - s'.z i| * |w i - s'.x i|) := by
    intro i
    have hD : (0 : ℝ) ≤ D i := Nat.cast_nonneg _
    obtain ⟨h1, h2⟩ := hsub i (w i)
    have h3 : |s'.z i| ≤ |s'.x i| + |s'.x i - s'.z i| := by
      have := abs_sub_abs_le_abs_sub (s'.z i) (s'.x i)
      rw [abs_sub_comm] at this
      linarith
    have h4 : -(s'.y i * (s'.x i - s'.z i)) ≤ (lamda + rho * |s.x i - s'.z i|) * |s'.x i - s'.z i| := by
      refine (neg_le_abs _).trans ?_
      rw [abs_mul]
      exact mul_le_mul_of_nonneg_right h2 (abs_nonneg _)
    have h5 : -(rho * (s.x i - s'.z i) * (w i - s'.x i)) ≤ rho * |s.x i - s'.z i| * |w i - s'.x i| := by
      refine (neg_le_abs _).trans ?_
      rw [abs_mul, abs_mul, abs_of_pos hr]
    have h6 : lamda * |s'.z i| ≤ lamda * |w i| + s'.y i * (w i - s'.z i) +
        ((2 * lamda + rho * |s.x i - s'.z i|) * |s'.x i - s'.z i| + rho * |s.x i - s'.z i| * |w i - s'.x i|) := by
      have h7 := mul_le_mul_of_nonneg_left h3 hl
      linarith
    have h8 := mul_le_mul_of_nonneg_left h6 hD
    linarith
  have hsum := Finset.sum_le_sum fun i (_ : i ∈ (Finset.univ : Finset (Fin p))) => key i
  simp only [Finset.sum_add_distrib, ← Finset.mul_sum] at hsum
  linarith

/-- Cauchy-Schwarz with the multiplicities. -/
theorem count_cs {D : ℕ → ℕ} {C : ℝ} (hC : ∀ i : Fin p, (D i : ℝ) ≤ C) (u v : Fin p → ℝ)
    (u' v' : Fin p → ℝ) (hu : ∀ i : Fin p, D i ≠ 0 → |u i| ≤ |u' i|) (hv : ∀ i : Fin p, D i ≠ 0 → |v i| ≤ |v' i|) :
    ∑ i : Fin p, (D i : ℝ) * (|u i| * |v i|) ≤ C * (npNorm u' * npNorm v') := by
  rcases isEmpty_or_nonempty (Fin p) with he | ⟨⟨i0⟩⟩
  · simp [npNorm]
  have hC0 : 0 ≤ C := (Nat.cast_nonneg _).trans (hC i0)
  have h1 : ∀ i : Fin p, (D i : ℝ) * (|u i| * |v i|) ≤ C * (|u' i| * |v' i|) := by
    intro i
    by_cases h : D i = 0
    · rw [h]
      simp only [Nat.cast_zero, zero_mul]
      positivity
    · exact mul_le_mul (hC i) (mul_le_mul (hu i h) (hv i h) (abs_nonneg _) (abs_nonneg _))
        (by positivity) hC0
  refine (Finset.sum_le_sum fun i _ => h1 i).trans ?_
  rw [← Finset.mul_sum]
  refine mul_le_mul_of_nonneg_left ?_ hC0
  have h2 := inner_le_npNorm (fun i => |u' i|) (fun i => |v' i|)
  unfold npNorm at h2 ⊢
  simpa only [sq_abs] using h2

theorem npNorm_add_le' (u v : Fin p → ℝ) : npNorm (u + v) ≤ npNorm u + npNorm v := by
  have h0 := add_nonneg (npNorm_nonneg u) (npNorm_nonneg v)
  refine abs_le_of_sq_le_sq' ?_ h0 |>.2
  rw [npNorm_sq, add_sq, npNorm_sq, npNorm_sq]
  have h1 := inner_le_npNorm u v
  have e : ∑ i, (u + v) i ^ 2 = ∑ i, u i ^ 2 + 2 * ∑ i, u i * v i + ∑ i, v i ^ 2 := by
    rw [Finset.mul_sum, ← Finset.sum_add_distrib, ← Finset.sum_add_distrib]
    exact Finset.sum_congr rfl fun i _ => by simp only [Pi.add_apply]; ring
  rw [e]
  linarith

/-- **C170** the recorded residuals of two consecutive passes bound the suboptimality of the returned
coefficients: with `q = rho * r_{k-1} + s_k` and every feature in at most `C` groups,
`F z ≤ F w + C (2 lamda √p r_k + q r_k + q (‖w - z‖ + r_k))` for every `w`, where `F` is the lasso objective
with each feature weighted by its number of groups. -/
theorem C170_certificate (rag : Bool) (npInv : Matrix (Fin p) (Fin p) ℝ → Matrix (Fin p) (Fin p) ℝ)
    (a : OverlapArgs m p) (hr : 0 < a.rho) (hl : 0 ≤ a.lamda)
    (hinv : overlapGram a * npInv (overlapGram a) = 1) {C : ℝ}
    (hC : ∀ i : Fin p, (groupCount a.groups i : ℝ) ≤ C) {z : Fin p → ℝ} {hist : List LassoHist} {k : ℕ}
    (hret : groupLassoOverlap rag npInv a = .ok (z, hist, k + 1)) :
    ∃ e0 e1, hist[k]? = some e0 ∧ hist[k + 1]? = some e1 ∧ ∀ w : Fin p → ℝ,
      weightedLassoObj a.A a.b a.lamda (fun i => groupCount a.groups i) z ≤
        weightedLassoObj a.A a.b a.lamda (fun i => groupCount a.groups i) w +
        C * (2 * a.lamda * (Real.sqrt p * e1.rnorm) + (a.rho * e0.rnorm + e1.snorm) * e1.rnorm +
          (a.rho * e0.rnorm + e1.snorm) * (npNorm (w - z) + e1.rnorm)) := by
  unfold groupLassoOverlap at hret
  simp only [overlap_loop] at hret
  set D := groupCount a.groups with hDdef
  have hinv' : (a.Aᵀ * a.A + a.rho • diagonal fun i : Fin p => (D i : ℝ)) * npInv (overlapGram a) = 1 := by
    have : overlapGram a = a.Aᵀ * a.A + a.rho • diagonal fun i : Fin p => (D i : ℝ) := by
      unfold overlapGram
      simp only [C48_D_function, hDdef]
    rw [← this]
    exact hinv
  set inv := npInv (overlapGram a) with hinvdef
  set body := featBody a D inv with hbody
  -- states of the run
  have hfst : ∀ j, (stateAt body (featInit p) (j + 1)).1 =
      featStep a.A a.b a.lamda a.rho D inv (stateAt body (featInit p) j).1 := by
    intro j
    show (body j (stateAt body (featInit p) j)).1.1 = _
    rw [hbody]
    unfold featBody
    simp only
    split_ifs <;> rfl
  have hchk : ∀ j, checkAt body (featInit p) j = (stateAt body (featInit p) j).1 := by
    intro j
    show (body j (stateAt body (featInit p) j)).2.1 = _
    rw [hbody]
    unfold featBody
    simp only
    split_ifs <;> rfl
  obtain ⟨hz, hh⟩ : z = (stateAt body (featInit p) (k + 2)).1.z ∧
      hist = ((List.range (k + 2)).map (checkAt body (featInit p))).map (featEntry a inv) := by
    rcases runLoop_spec body a.maxIter (featInit p) with ⟨j, hj, -, -, hrun⟩ | ⟨-, hrun⟩
    · simp only [hrun] at hret
      split_ifs at hret
      obtain ⟨rfl, h2⟩ := Prod.mk.inj (Except.ok.inj hret)
      obtain ⟨rfl, rfl⟩ := Prod.mk.inj h2
      exact ⟨rfl, rfl⟩
    · simp only [hrun] at hret
      by_cases h0 : a.maxIter = 0
      · simp only [h0, if_true] at hret
        exact absurd hret (by simp)
      · simp only [if_neg h0] at hret
        split_ifs at hret
        obtain ⟨rfl, h2⟩ := Prod.mk.inj (Except.ok.inj hret)
        obtain ⟨rfl, h3⟩ := Prod.mk.inj h2
        have : a.maxIter = k + 2 := by omega
        rw [this]
        exact ⟨rfl, rfl⟩
  set s0 := (stateAt body (featInit p) k).1 with hs0
  set s1 := (stateAt body (featInit p) (k + 1)).1 with hs1
  have h01 : s1 = featStep a.A a.b a.lamda a.rho D inv s0 := hfst k
  have hz' : z = (featStep a.A a.b a.lamda a.rho D inv s1).z := by rw [hz, hfst]
  refine ⟨featEntry a inv s0, featEntry a inv s1, ?_, ?_, fun w => ?_⟩
  · rw [hh, List.getElem?_map, List.getElem?_map, List.getElem?_range (by omega)]
    simp only [Option.map_some, hchk]
    rfl
  · rw [hh, List.getElem?_map, List.getElem?_map, List.getElem?_range (by omega)]
    simp only [Option.map_some, hchk]
    rfl
  have hgap := featStep_gap a.A a.b hr hl hinv' s1 w
  set s2 := featStep a.A a.b a.lamda a.rho D inv s1 with hs2
  have hr0 : (featEntry a inv s0).rnorm = npNorm (featMean D s1.x - s1.z) := by rw [h01]; rfl
  have hr1 : (featEntry a inv s1).rnorm = npNorm (featMean D s2.x - s2.z) := rfl
  have hs : (featEntry a inv s1).snorm = a.rho * npNorm (s2.z - s1.z) := by
    show npNorm ((-a.rho) • (s2.z - s1.z)) = _
    have := npNorm_smul (-a.rho) (s2.z - s1.z)
    rw [abs_neg, abs_of_pos hr] at this
    exact this
  rw [hr0, hr1, hs, hz']
  refine hgap.trans ?_
  -- abbreviations
  set R0 := npNorm (featMean D s1.x - s1.z) with hR0
  set R1 := npNorm (featMean D s2.x - s2.z) with hR1
  set S1 := npNorm (s2.z - s1.z) with hS1
  have hR1n : 0 ≤ R1 := npNorm_nonneg _
  have hq : npNorm (featMean D s1.x - s2.z) ≤ R0 + S1 := by
    have e : featMean D s1.x - s2.z = (featMean D s1.x - s1.z) + -(s2.z - s1.z) := by abel
    have h1 := npNorm_add_le' (featMean D s1.x - s1.z) (-(s2.z - s1.z))
    have h2 : npNorm (-(s2.z - s1.z)) = S1 := by
      unfold npNorm
      simp only [Pi.neg_apply, neg_sq, hS1]
      rfl
    rw [e]
    linarith
  have hwn : npNorm ((w - s2.z) + -(featMean D s2.x - s2.z)) ≤ npNorm (w - s2.z) + R1 := by
    have h1 := npNorm_add_le' (w - s2.z) (-(featMean D s2.x - s2.z))
    have h2 : npNorm (-(featMean D s2.x - s2.z)) = R1 := by
      unfold npNorm
      simp only [Pi.neg_apply, neg_sq, hR1]
      rfl
    linarith
  have hone : npNorm (fun _ : Fin p => (1 : ℝ)) = Real.sqrt p := by
    unfold npNorm
    simp
  have hfm : ∀ (v : Fin p → ℝ) (i : Fin p), D i ≠ 0 → featMean D v i = v i := by
    intro v i h; unfold featMean; rw [if_neg h]
  have c1 := count_cs (D := D) hC (fun _ => 1) (fun i => s2.x i - s2.z i) (fun _ => 1)
    (featMean D s2.x - s2.z) (fun i _ => le_rfl) (fun i h => by rw [Pi.sub_apply, hfm _ _ h])
  have c2 := count_cs (D := D) hC (fun i => s1.x i - s2.z i) (fun i => s2.x i - s2.z i)
    (featMean D s1.x - s2.z) (featMean D s2.x - s2.z) (fun i h => by rw [Pi.sub_apply, hfm _ _ h])
    (fun i h => by rw [Pi.sub_apply, hfm _ _ h])
  have c3 := count_cs (D := D) hC (fun i => s1.x i - s2.z i) (fun i => w i - s2.x i)
    (featMean D s1.x - s2.z) ((w - s2.z) + -(featMean D s2.x - s2.z))
    (fun i h => by rw [Pi.sub_apply, hfm _ _ h])
    (fun i h => by
      rw [Pi.add_apply, Pi.neg_apply, Pi.sub_apply, Pi.sub_apply, hfm _ _ h]
      refine le_of_eq (congrArg _ ?_)
      ring)
  rw [hone, ← hR1] at c1
  rw [← hR1] at c2
  simp only [abs_one, one_mul] at c1
  have e : ∑ i : Fin p, (D i : ℝ) * ((2 * a.lamda + a.rho * |s1.x i - s2.z i|) * |s2.x i - s2.z i| +
      a.rho * |s1.x i - s2.z i| * |w i - s2.x i|) =
      2 * a.lamda * (∑ i : Fin p, (D i : ℝ) * |s2.x i - s2.z i|) +
      a.rho * (∑ i : Fin p, (D i : ℝ) * (|s1.x i - s2.z i| * |s2.x i - s2.z i|)) +
      a.rho * ∑ i : Fin p, (D i : ℝ) * (|s1.x i - s2.z i| * |w i - s2.x i|) := by
    simp only [Finset.mul_sum, ← Finset.sum_add_distrib]
    exact Finset.sum_congr rfl fun i _ => by ring
  rw [e]
  rcases isEmpty_or_nonempty (Fin p) with he | ⟨⟨i0⟩⟩
  · have z1 : ∀ v : Fin p → ℝ, npNorm v = 0 := fun v => by simp [npNorm]
    simp [hR0, hR1, hS1, z1]
  have hC0 : 0 ≤ C := (Nat.cast_nonneg _).trans (hC i0)
  have hqn := npNorm_nonneg (featMean D s1.x - s2.z)
  have d2 : C * (npNorm (featMean D s1.x - s2.z) * R1) ≤ C * ((R0 + S1) * R1) :=
    mul_le_mul_of_nonneg_left (mul_le_mul_of_nonneg_right hq hR1n) hC0
  have d3 : C * (npNorm (featMean D s1.x - s2.z) * npNorm ((w - s2.z) + -(featMean D s2.x - s2.z))) ≤
      C * ((R0 + S1) * (npNorm (w - s2.z) + R1)) :=
    mul_le_mul_of_nonneg_left (mul_le_mul hq hwn (npNorm_nonneg _) (hqn.trans hq)) hC0
  have f1 := mul_le_mul_of_nonneg_left c1 (mul_nonneg (by norm_num : (0 : ℝ) ≤ 2) hl)
  have f2 := mul_le_mul_of_nonneg_left (c2.trans d2) hr.le
  have f3 := mul_le_mul_of_nonneg_left (c3.trans d3) hr.le
  have g : C * (2 * a.lamda * (Real.sqrt p * R1) + (a.rho * R0 + a.rho * S1) * R1 +
      (a.rho * R0 + a.rho * S1) * (npNorm (w - s2.z) + R1)) =
      2 * a.lamda * (C * (Real.sqrt p * R1)) + a.rho * (C * ((R0 + S1) * R1)) +
      a.rho * (C * ((R0 + S1) * (npNorm (w - s2.z) + R1))) := by ring
  rw [g]
  linarith

/-- Without a pass the last line raises UnboundLocalError. -/
theorem C169_no_pass (rag : Bool) (npInv : Matrix (Fin p) (Fin p) ℝ → Matrix (Fin p) (Fin p) ℝ)
    (a : OverlapArgs m p) (h : a.maxIter = 0) : groupLassoOverlap rag npInv a = .error .name := by
  unfold groupLassoOverlap
  rw [h]
  rfl

/-- One pass. -/
theorem overlap_one_pass (npInv : Matrix (Fin p) (Fin p) ℝ → Matrix (Fin p) (Fin p) ℝ)
    (a : OverlapArgs m p) (h : a.maxIter = 1)
    (hu : (a.groups.all fun g => g.length == (a.groups.headD []).length) = true) (rag : Bool) :
    groupLassoOverlap rag npInv a =
      .ok ((overlapUpdate a.A a.b a.lamda a.rho a.groups (npInv (overlapGram a)) (overlapInit p).1).z,
        [(overlapBody a (npInv (overlapGram a)) 0 (overlapInit p)).2.1], 0) := by
  unfold groupLassoOverlap
  rw [h]
  set body := overlapBody a (npInv (overlapGram a)) with hb
  have hz : (body 0 (overlapInit p)).1.1.z =
      (overlapUpdate a.A a.b a.lamda a.rho a.groups (npInv (overlapGram a)) (overlapInit p).1).z := by
    rw [hb]
    unfold overlapBody
    simp only
    split_ifs <;> rfl
  rcases runLoop_spec body 1 (overlapInit p) with ⟨j, hj, -, -, hrun⟩ | ⟨-, hrun⟩
  · obtain rfl : j = 0 := by omega
    simp only [hrun, hu, Bool.not_true, Bool.and_false]
    rw [← hz]
    rfl
  · simp only [hrun, hu, Bool.not_true, Bool.and_false]
    rw [← hz]
    rfl

/-! ### The recorded objective -/

/-- One feature, one observation. -/
noncomputable def overlapUnit : OverlapArgs 1 1 := ⟨1, fun _ => 1, 1, [[0]], 1, 1, 0, 0⟩

theorem overlapUnit_gram : overlapGram overlapUnit = (2 : ℝ) • (1 : Matrix (Fin 1) (Fin 1) ℝ) := by
  have hd : ∀ i : Fin 1, dFunction [[0]] (i : ℕ) = 1 := by decide
  funext i j
  fin_cases i
  fin_cases j
  show ((1 : Matrix (Fin 1) (Fin 1) ℝ)ᵀ * 1 + (1 : ℝ) • (diagonal fun i : Fin 1 =>
    (dFunction [[0]] i : ℝ)) : Matrix (Fin 1) (Fin 1) ℝ) 0 0 = ((2 : ℝ) • (1 : Matrix (Fin 1) (Fin 1) ℝ)) 0 0
  simp only [hd]
  norm_num

/-- **C171 is false**: the objective the history records is that of the documented problem. In this run (one
feature, one group) the recorded value is below the documented objective of every coefficient, since the
penalty is evaluated at the copies and the loss at the consensus; `np.linalg.inv` is exact here. -/
theorem C171_objective_false : ∃ npInv : Matrix (Fin 1) (Fin 1) ℝ → Matrix (Fin 1) (Fin 1) ℝ,
    overlapGram overlapUnit * npInv (overlapGram overlapUnit) = 1 ∧
    ∃ z hist, groupLassoOverlap true npInv overlapUnit = .ok (z, hist, 0) ∧
      hist.map LassoHist.obj = [1 / 8] ∧
      ∀ w, 1 / 2 ≤ groupLassoObj overlapUnit.A overlapUnit.b overlapUnit.lamda [[0]] w := by
  refine ⟨fun _ => (1 / 2 : ℝ) • 1, ?_, ?_⟩
  · rw [overlapUnit_gram, smul_mul_smul_comm, one_mul]
    norm_num
  refine ⟨_, _, overlap_one_pass _ _ rfl (by rfl) true, ?_, fun w => ?_⟩
  · have hx : ∀ g j, (overlapUpdate overlapUnit.A overlapUnit.b overlapUnit.lamda overlapUnit.rho
        overlapUnit.groups ((1 / 2 : ℝ) • 1) (overlapInit 1).1).x g j = 0 := by
      intro g j
      show softScalar (0 - 0 / 1) (1 / 1) = 0
      rw [zero_div, sub_zero, softScalar_zero']
    have hz : (overlapUpdate overlapUnit.A overlapUnit.b overlapUnit.lamda overlapUnit.rho
        overlapUnit.groups ((1 / 2 : ℝ) • 1) (overlapInit 1).1).z 0 = 1 / 2 := by
      show (((1 / 2 : ℝ) • (1 : Matrix (Fin 1) (Fin 1) ℝ)) *ᵥ ((1 : Matrix (Fin 1) (Fin 1) ℝ)ᵀ *ᵥ
        (fun _ => (1 : ℝ)) + diagonal (fun i : Fin 1 => (dFunction [[0]] i : ℝ)) *ᵥ
        ((fun i : Fin 1 => pStar [[0]] (fun _ _ => (0 : ℝ)) i) + (1 : ℝ) • fun i : Fin 1 =>
          pStar [[0]] (overlapUpdate overlapUnit.A overlapUnit.b overlapUnit.lamda overlapUnit.rho
            overlapUnit.groups ((1 / 2 : ℝ) • 1) (overlapInit 1).1).x i))) 0 = _
      have e : (overlapUpdate overlapUnit.A overlapUnit.b overlapUnit.lamda overlapUnit.rho
          overlapUnit.groups ((1 / 2 : ℝ) • 1) (overlapInit 1).1).x = fun _ _ => 0 := by
        funext g j; exact hx g j
      rw [e]
      have hp : ∀ i : Fin 1, pStar [[0]] (fun _ _ => (0 : ℝ)) (i : ℕ) = 0 := by
        intro i
        fin_cases i
        simp [pStar]
      simp only [hp]
      simp [smul_mulVec, mulVec_add, Pi.add_apply]
    have ho : (overlapBody overlapUnit ((1 / 2 : ℝ) • 1) 0 (overlapInit 1)).2.1.obj =
        overlapObjective overlapUnit.A overlapUnit.b overlapUnit.lamda overlapUnit.groups
          (overlapUpdate overlapUnit.A overlapUnit.b overlapUnit.lamda overlapUnit.rho
            overlapUnit.groups ((1 / 2 : ℝ) • 1) (overlapInit 1).1).x
          (overlapUpdate overlapUnit.A overlapUnit.b overlapUnit.lamda overlapUnit.rho
            overlapUnit.groups ((1 / 2 : ℝ) • 1) (overlapInit 1).1).z := by
      unfold overlapBody
      simp only
      split_ifs <;> rfl
    rw [List.map_singleton, ho]
    generalize (overlapUpdate overlapUnit.A overlapUnit.b overlapUnit.lamda overlapUnit.rho
            overlapUnit.groups ((1 / 2 : ℝ) • 1) (overlapInit 1).1) = u at hx hz
    unfold overlapObjective copiesNorm
    have hA : overlapUnit.A = 1 := rfl
    have hb : ∀ i, overlapUnit.b i = 1 := fun _ => rfl
    simp only [hx, hA, one_mulVec, Fin.sum_univ_one, Fin.isValue, hb, hz]
    norm_num
  · unfold groupLassoObj groupNormSum
    have hA : overlapUnit.A = 1 := rfl
    have hb : ∀ i, overlapUnit.b i = 1 := fun _ => rfl
    have hl : overlapUnit.lamda = 1 := rfl
    simp only [hA, one_mulVec, Fin.sum_univ_one, Fin.isValue, hb, hl]
    simp [Real.sqrt_sq_eq_abs]
    nlinarith [le_abs_self (w 0), sq_nonneg (w 0)]

theorem sum_range_getD (f : ℕ → ℝ) (l : List ℕ) :
    ∑ j ∈ Finset.range l.length, f (l.getD j 0) = (l.map f).sum := by
  induction l with
  | nil => simp
  | cons a l ih =>
    rw [List.length_cons, Finset.sum_range_succ', List.map_cons, List.sum_cons, ← ih, add_comm]
    rfl

/-- What the recorded penalty is once the copies agree with the consensus: the root of the weighted sum of the
squares over all groups together, and not a sum of one norm per group. -/
theorem C171_agreement_partial {groups : List (List ℕ)} (hnd : ∀ g ∈ groups, g.Nodup)
    (z : Fin p → ℝ) :
    copiesNorm groups (zGroup groups z) = Real.sqrt (∑ i : Fin p, groupCount groups i * z i ^ 2) := by
  unfold copiesNorm
  congr 1
  have h1 : ∀ g ∈ Finset.range groups.length, ∑ j ∈ Finset.range (groups.getD g []).length,
      zGroup groups z g j ^ 2 = ∑ i : Fin p, if (i : ℕ) ∈ groups.getD g [] then z i ^ 2 else 0 := by
    intro g hg
    rw [Finset.mem_range] at hg
    have hn : (groups.getD g []).Nodup := by
      rw [List.getD_eq_getElem _ _ hg]; exact hnd _ (List.getElem_mem hg)
    set l := groups.getD g [] with hl
    set f : ℕ → ℝ := fun i => if h : i < p then z ⟨i, h⟩ ^ 2 else 0 with hf
    have e1 : ∑ j ∈ Finset.range l.length, zGroup groups z g j ^ 2 =
        ∑ j ∈ Finset.range l.length, f (l.getD j 0) := by
      refine Finset.sum_congr rfl fun j _ => ?_
      unfold zGroup
      simp only [hf, ← hl]
      split_ifs <;> simp
    rw [e1, sum_range_getD, ← List.sum_toFinset f hn]
    have e2 : (∑ i : Fin p, if (i : ℕ) ∈ l then z i ^ 2 else 0) =
        ∑ i ∈ Finset.range p, if i ∈ l then f i else 0 := by
      rw [Finset.sum_range]
      refine Finset.sum_congr rfl fun i _ => ?_
      simp only [hf, i.isLt, dif_pos]
    rw [e2, ← Finset.sum_filter]
    symm
    refine Finset.sum_subset_zero_on_sdiff ?_ ?_ (fun _ _ => rfl)
    · intro i hi
      rw [List.mem_toFinset]
      exact (Finset.mem_filter.mp hi).2
    · intro i hi
      rw [Finset.mem_sdiff, List.mem_toFinset, Finset.mem_filter, Finset.mem_range] at hi
      have : ¬ i < p := fun h => hi.2 ⟨h, hi.1⟩
      simp only [dif_neg this]
  rw [Finset.sum_congr rfl h1, Finset.sum_comm]
  exact Finset.sum_congr rfl fun i _ => sum_ite_groups groups (z i ^ 2) i

/-! Concrete cases -/

example : (∀ i : Fin 3, groupCount [[0], [1], [2]] (i : ℕ) = groupCount [[0, 1], [2]] i) := by decide

/-- Both calls of C168 return. -/
example (npInv : Matrix (Fin 4) (Fin 4) ℝ → Matrix (Fin 4) (Fin 4) ℝ) (A : Matrix (Fin 3) (Fin 4) ℝ)
    (b : Fin 3 → ℝ) : (∀ i : Fin 4, groupCount [[0], [1], [2], [3]] (i : ℕ) = groupCount [[0, 1], [2, 3]] i) ∧
    (∃ r, groupLassoOverlap true npInv ⟨A, b, 1, [[0, 1], [2, 3]], 1, 1, 0, 0⟩ = .ok r) ∧
    ∃ r, groupLassoOverlap true npInv ⟨A, b, 1, [[0], [1], [2], [3]], 1, 1, 0, 0⟩ = .ok r :=
  ⟨by decide, ⟨_, overlap_one_pass _ _ rfl (by rfl) true⟩, ⟨_, overlap_one_pass _ _ rfl (by rfl) true⟩⟩

/-- The hypotheses of C170: two passes with an exact inverse. -/
example : ∃ npInv : Matrix (Fin 1) (Fin 1) ℝ → Matrix (Fin 1) (Fin 1) ℝ,
    overlapGram { overlapUnit with maxIter := 2 } * npInv (overlapGram { overlapUnit with maxIter := 2 }) = 1 ∧
    (∀ i : Fin 1, (groupCount [[0]] i : ℝ) ≤ 1) ∧
    ∃ z hist, groupLassoOverlap true npInv { overlapUnit with maxIter := 2 } = .ok (z, hist, 0 + 1) := by
  refine ⟨fun _ => (1 / 2 : ℝ) • 1, ?_, ?_, ?_⟩
  · have : overlapGram { overlapUnit with maxIter := 2 } = overlapGram overlapUnit := rfl
    rw [this, overlapUnit_gram, smul_mul_smul_comm, one_mul]
    norm_num
  · intro i
    fin_cases i
    have : groupCount [[0]] 0 = 1 := by decide
    simp [this]
  · unfold groupLassoOverlap
    set a : OverlapArgs 1 1 := { overlapUnit with maxIter := 2 } with ha
    have h0 : ∀ it s, (s.2 = 0) → (overlapBody a ((1 / 2 : ℝ) • 1) it s).2.2 = false := by
      intro it s hs
      unfold overlapBody
      simp only [hs]
      split_ifs <;> rfl
    simp only [show a.maxIter = 2 from rfl]
    rcases runLoop_spec (overlapBody a ((1 / 2 : ℝ) • 1)) 2 (overlapInit 1) with
      ⟨j, hj, -, hs, hrun⟩ | ⟨-, hrun⟩
    · rcases Nat.lt_or_ge j 1 with h | h
      · obtain rfl : j = 0 := by omega
        have := h0 0 (overlapInit 1) rfl
        have hs' : (overlapBody a ((1 / 2 : ℝ) • 1) 0 (overlapInit 1)).2.2 = true := hs
        rw [this] at hs'
        exact absurd hs' (by simp)
      · obtain rfl : j = 1 := by omega
        simp only [hrun]
        exact ⟨_, _, rfl⟩
    · simp only [hrun]
      exact ⟨_, _, rfl⟩

example : (∀ g ∈ [[0, 1], [1, 2]], g.Nodup) ∧ groupCount [[0, 1], [1, 2]] 1 = 2 := by decide

end Verif.Props
