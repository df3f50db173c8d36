import Verif.Model.Missing
import Verif.Spec.Gauss
import Verif.Lemmas.Loop
import Verif.Lemmas.Spectral
import Mathlib.Analysis.Matrix.PosDef
import Mathlib.Data.Matrix.Block

/-! Property theorems C60, C92, C93 (graphical lasso with missing data). -/

namespace Verif.Props

open Verif.Model Verif.Spec Verif.Lemmas Matrix

set_option autoImplicit false
set_option linter.unusedSectionVars false

variable {N P : Type*} [Fintype N] [Fintype P] [DecidableEq P]

theorem isNone_of_none {X : MissData N P} {i : N} {v : P} (h : X i v = none) :
    (X i v).isNone = true := by rw [h]; rfl

theorem missBlock_posDef {K : Matrix P P ℝ} (hK : K.PosDef) (X : MissData N P) (i : N) :
    (missBlock K X i).PosDef := by
  have h : missBlock K X i = (K.submatrix Subtype.val Subtype.val)ᵀ := by ext a b; rfl
  rw [h]
  exact (hK.submatrix Subtype.val_injective).transpose

theorem rawCs_obs (mu : P → ℝ) (K : Matrix P P ℝ) (X : MissData N P) {i : N} {v : P}
    (h : ¬ (X i v).isNone = true) : rawCs mu K X i v = 0 := by
  unfold rawCs; rw [dif_neg h]

/-- The unscaled completion of a row is its conditional mean. -/
theorem rawCs_conditionalMean {K : Matrix P P ℝ} (hK : K.PosDef) (mu : P → ℝ) (X : MissData N P)
    (i : N) : IsConditionalMean K mu (X i) ((nanToNum X + rawCs mu K X) i) := by
  set z : P → ℝ := (nanToNum X + rawCs mu K X) i with hz
  have hzo : ∀ v r, X i v = some r → z v = r := by
    intro v r h
    have h1 : ¬ (X i v).isNone = true := by rw [h]; simp
    simp only [hz, Matrix.add_apply, rawCs_obs mu K X h1, nanToNum, h]
    simp
  have hsymm : ∀ a b, K a b = K b a := fun a b => by
    have := congrFun (congrFun hK.isSymm'.eq b) a
    simpa [transpose_apply] using this
  have hB := missBlock_posDef hK X i
  have hdet : IsUnit (missBlock K X i).det := isUnit_iff_ne_zero.mpr hB.det_pos.ne'
  set dO : Obs X i → ℝ := fun b => (X i b.1).getD 0 - mu b.1 with hdO
  have hmiss : ∀ a : Miss X i, z a.1 - mu a.1 =
      -(((missBlock K X i)⁻¹ * crossBlock K X i) *ᵥ dO) a := by
    intro a
    have h1 : nanToNum X i a.1 = 0 := by
      have := a.2
      rw [Option.isNone_iff_eq_none] at this
      simp [nanToNum, this]
    have h2 : rawCs mu K X i a.1 = mu a.1 - (((missBlock K X i)⁻¹ * crossBlock K X i) *ᵥ dO) a := by
      unfold rawCs; rw [dif_pos a.2]
    simp only [hz, Matrix.add_apply, h1, h2]
    ring
  have hobs : ∀ b : Obs X i, z b.1 - mu b.1 = dO b := by
    intro b
    simp only [hz, Matrix.add_apply, rawCs_obs mu K X b.2, nanToNum, hdO]
    ring
  -- the gradient vanishes at the missing coordinates
  have hgrad : ∀ v, X i v = none → (K *ᵥ (z - mu)) v = 0 := by
    intro v hv
    have hv' := isNone_of_none hv
    have h1 : (K *ᵥ (z - mu)) v = ∑ b, K v b * (z b - mu b) := rfl
    rw [h1, ← Fintype.sum_subtype_add_sum_subtype (fun b => (X i b).isNone = true)]
    have e1 : ∑ a : Miss X i, K v a.1 * (z a.1 - mu a.1) =
        -(missBlock K X i *ᵥ (((missBlock K X i)⁻¹ * crossBlock K X i) *ᵥ dO)) ⟨v, hv'⟩ := by
      rw [mulVec, dotProduct, ← Finset.sum_neg_distrib]
      refine Finset.sum_congr rfl fun a _ => ?_
      rw [hmiss a, hsymm v a.1]
      simp [missBlock]
    have e2 : ∑ b : Obs X i, K v b.1 * (z b.1 - mu b.1) = (crossBlock K X i *ᵥ dO) ⟨v, hv'⟩ := by
      rw [mulVec, dotProduct]
      refine Finset.sum_congr rfl fun b _ => ?_
      rw [hobs b, hsymm v b.1]
      rfl
    rw [e1, e2, mulVec_mulVec, ← Matrix.mul_assoc, mul_nonsing_inv _ hdet, Matrix.one_mul]
    ring
  refine ⟨hzo, fun w hw hne => ?_⟩
  have hd : w - z ≠ 0 := sub_ne_zero.mpr hne
  have hcross : (w - z) ⬝ᵥ (K *ᵥ (z - mu)) = 0 := by
    refine Finset.sum_eq_zero fun v _ => ?_
    rcases hx : X i v with _ | r
    · rw [hgrad v hx, mul_zero]
    · have h1 := hw v r hx
      have h2 := hzo v r hx
      simp [h1, h2]
  have hcross' : (z - mu) ⬝ᵥ (K *ᵥ (w - z)) = 0 := by
    rw [← hcross, dotProduct_mulVec, ← mulVec_transpose, hK.isSymm'.eq, dotProduct_comm]
  have hpos : 0 < (w - z) ⬝ᵥ (K *ᵥ (w - z)) := by
    have := hK.dotProduct_mulVec_pos hd
    simpa using this
  have e : w - mu = (z - mu) + (w - z) := by abel
  change _ < (w - mu) ⬝ᵥ (K *ᵥ (w - mu))
  rw [e, mulVec_add, dotProduct_add, add_dotProduct, add_dotProduct, hcross, hcross']
  linarith

theorem conditionalMean_unique {K : Matrix P P ℝ} {mu : P → ℝ} {x : P → Option ℝ} {z w : P → ℝ}
    (hz : IsConditionalMean K mu x z) (hw : IsConditionalMean K mu x w) : z = w :=
  hw.eq_of_isMin hz.isMin

/-! ### C60 -/

section
variable [Nonempty N] [Nonempty P]

theorem abs_le_maxAbs (A : Matrix N P ℝ) (i : N) (v : P) : |A i v| ≤ maxAbs A :=
  Finset.le_sup' (fun p : N × P => |A p.1 p.2|) (Finset.mem_univ (i, v))

theorem maxAbs_attained (A : Matrix N P ℝ) : ∃ i v, maxAbs A = |A i v| := by
  obtain ⟨p, _, hp⟩ := Finset.exists_mem_eq_sup' (Finset.univ_nonempty (α := N × P))
    (fun p : N × P => |A p.1 p.2|)
  exact ⟨p.1, p.2, hp⟩

variable (gl : Matrix P P ℝ → Matrix P P ℝ → Matrix P P ℝ)
  (logl : Matrix P P ℝ → Matrix P P ℝ → XF) (tol : ℝ) (X : MissData N P)

/-- Every finished run performed at least one iteration; what is returned is what the last one
computed. -/
theorem missing_last {m : ℕ} {K S : Matrix P P ℝ} {C : Matrix N P ℝ} {hist : List XF} {it : ℕ}
    {w : Bool} (h : missingGraphicalLasso gl logl tol X m = .ok K S C hist it w) :
    it < m ∧ (∀ k < it, stopAt (missBody gl logl tol X) missInit k = false) ∧
    (w = false ↔ stopAt (missBody gl logl tol X) missInit it = true) ∧ (w = true → it + 1 = m) ∧
    hist = (List.range (it + 1)).map (checkAt (missBody gl logl tol X) missInit) ∧
    let s := stateAt (missBody gl logl tol X) missInit it
    C = nanToNum X + computeCs s.means s.K X ∧
      S = computeEmpCov X s.K (computeCs s.means s.K X) ∧ K = gl S s.K := by
  unfold missingGraphicalLasso at h
  simp only at h
  rcases runLoop_spec (missBody gl logl tol X) m missInit with ⟨j, hj, hno, hs, hr⟩ | ⟨hno, hr⟩
  · rw [hr] at h
    simp only at h
    injection h with h1 h2 h3 h4 h5 h6
    subst h5
    refine ⟨hj, hno, by simp [hs, ← h6], by simp [← h6], h4.symm, ?_⟩
    subst h1 h2 h3
    exact ⟨rfl, rfl, rfl⟩
  · rw [hr] at h
    rcases m with _ | m
    · simp at h
    · simp only [Nat.add_eq_zero_iff, one_ne_zero, and_false, if_false, Nat.add_sub_cancel] at h
      injection h with h1 h2 h3 h4 h5 h6
      subst h5
      refine ⟨Nat.lt_succ_self _, fun k hk => hno k (by omega), ?_, fun _ => rfl, h4.symm, ?_⟩
      · simp [← h6, hno m (Nat.lt_succ_self _)]
      · subst h1 h2 h3
        exact ⟨rfl, rfl, rfl⟩

/-- C60: whatever the inner solver does, every observed entry is returned unchanged. -/
theorem C60_observed_kept {m : ℕ} {K S : Matrix P P ℝ} {C : Matrix N P ℝ} {hist : List XF} {it : ℕ}
    {w : Bool} (h : missingGraphicalLasso gl logl tol X m = .ok K S C hist it w) {i : N} {v : P}
    {r : ℝ} (hx : X i v = some r) : C i v = r := by
  obtain ⟨_, _, _, _, _, hC, _, _⟩ := missing_last gl logl tol X h
  rw [hC, Matrix.add_apply]
  have h1 : ¬ (X i v).isNone = true := by rw [hx]; simp
  unfold computeCs
  rw [rawCs_obs _ _ _ h1, nanToNum, hx]
  simp

theorem miss_stateAt_posDef (hgl : ∀ S K0, (gl S K0).PosDef) (k : ℕ) :
    (stateAt (missBody gl logl tol X) missInit k).K.PosDef := by
  cases k with
  | zero => exact PosDef.one
  | succ k => exact hgl _ _

/-- The state the last iteration started from is what a run limited to the previous iterations
returns. -/
theorem missing_previous {k : ℕ}
    (hno : ∀ j < k + 1, stopAt (missBody gl logl tol X) missInit j = false) :
    ∃ K S C hist, missingGraphicalLasso gl logl tol X (k + 1) = .ok K S C hist k true ∧
      (stateAt (missBody gl logl tol X) missInit (k + 1)).K = K ∧
      (stateAt (missBody gl logl tol X) missInit (k + 1)).means = fun v => ∑ i, C i v := by
  unfold missingGraphicalLasso
  simp only
  rcases runLoop_spec (missBody gl logl tol X) (k + 1) missInit with ⟨j, hj, _, hs, _⟩ | ⟨_, hr⟩
  · rw [hno j hj] at hs; cases hs
  · rw [hr, if_neg (Nat.succ_ne_zero k)]
    exact ⟨_, _, _, _, rfl, rfl, rfl⟩

/-- C60 (part that holds): if the inner solver returns positive definite matrices, the missing
entries of the returned matrix are the conditional means `z` (given the observed entries of the same
row) divided by ONE common factor `c ≥ 1`, and `c = 1`, so that the entries are the conditional
means, exactly when no conditional mean exceeds 1 in magnitude. The precision and mean vector are
those the last iteration started from: identity and zero in the first iteration, afterwards the
result and the column SUMS of the run stopped one iteration earlier. Missing from the full statement:
`c` is not always 1 (`C60_imputation_false`). -/
theorem C60_conditional_mean_partial (hgl : ∀ S K0, (gl S K0).PosDef) {m : ℕ} {K S : Matrix P P ℝ}
    {C : Matrix N P ℝ} {hist : List XF} {it : ℕ} {w : Bool}
    (h : missingGraphicalLasso gl logl tol X m = .ok K S C hist it w) :
    ∃ (Kp : Matrix P P ℝ) (mu : P → ℝ) (z : N → P → ℝ) (c : ℝ),
      (it = 0 → Kp = 1 ∧ mu = 0) ∧
      (∀ k, it = k + 1 → ∃ S' C' hist',
        missingGraphicalLasso gl logl tol X (k + 1) = .ok Kp S' C' hist' k true ∧
        mu = fun v => ∑ i, C' i v) ∧
      (∀ i, IsConditionalMean Kp mu (X i) (z i)) ∧ 1 ≤ c ∧
      (∀ i v, X i v = none → C i v = z i v / c) ∧
      (c = 1 ↔ ∀ i v, X i v = none → |z i v| ≤ 1) := by
  obtain ⟨_, hno, _, _, _, hC, _, _⟩ := missing_last gl logl tol X h
  set s := stateAt (missBody gl logl tol X) missInit it with hs
  have hK : s.K.PosDef := miss_stateAt_posDef gl logl tol X hgl it
  refine ⟨s.K, s.means, nanToNum X + rawCs s.means s.K X, max (maxAbs (rawCs s.means s.K X)) 1,
    ?_, ?_, fun i => rawCs_conditionalMean hK s.means X i, le_max_right _ _, ?_, ?_⟩
  · intro h0
    rw [hs, h0]
    exact ⟨rfl, rfl⟩
  · intro k hk
    obtain ⟨K', S', C', hist', hr, e1, e2⟩ :=
      missing_previous gl logl tol X (k := k) (fun j hj => hno j (by omega))
    refine ⟨S', C', hist', ?_, ?_⟩
    · rw [hs, hk, e1]; exact hr
    · rw [hs, hk]; exact e2
  · intro i v hv
    have h1 : nanToNum X i v = 0 := by simp [nanToNum, hv]
    rw [hC, Matrix.add_apply, Matrix.add_apply, h1, zero_add, zero_add]
    rfl
  · have h0 : ∀ i v, X i v = none → (nanToNum X + rawCs s.means s.K X) i v =
        rawCs s.means s.K X i v := by
      intro i v hv
      have h1 : nanToNum X i v = 0 := by simp [nanToNum, hv]
      rw [Matrix.add_apply, h1, zero_add]
    constructor
    · intro h1 i v hv
      rw [h0 i v hv]
      exact le_trans (abs_le_maxAbs _ i v) (le_trans (le_max_left _ _) h1.le)
    · intro h1
      obtain ⟨i, v, hm⟩ := maxAbs_attained (rawCs s.means s.K X)
      refine max_eq_right ?_
      rw [hm]
      by_cases hx : (X i v).isNone = true
      · have hv := Option.isNone_iff_eq_none.mp hx
        have := h1 i v hv
        rwa [h0 i v hv] at this
      · rw [rawCs_obs _ _ _ hx]; simp

end

/-- One variable, two samples, the second one missing. -/
def oneMissing (a : ℝ) : MissData (Fin 2) (Fin 1) := fun i _ => if i = 0 then some a else none

theorem oneMissing_rawCs (a : ℝ) (mu : Fin 1 → ℝ) (K : Matrix (Fin 1) (Fin 1) ℝ) :
    rawCs mu K (oneMissing a) = !![0; mu 0] := by
  ext i v
  have hv : v = 0 := Subsingleton.elim _ _
  subst hv
  have he : IsEmpty (Obs (oneMissing a) (1 : Fin 2)) := ⟨fun b => b.2 (by simp [oneMissing])⟩
  fin_cases i
  · simp [rawCs, oneMissing]
  · have h1 : (oneMissing a 1 0).isNone = true := by simp [oneMissing]
    change rawCs mu K (oneMissing a) 1 0 = mu 0
    unfold rawCs
    rw [dif_pos h1, mulVec, dotProduct, Finset.sum_of_isEmpty, sub_zero]

theorem oneMissing_cs (a : ℝ) (mu : Fin 1 → ℝ) (K : Matrix (Fin 1) (Fin 1) ℝ) :
    computeCs mu K (oneMissing a) 0 0 = 0 ∧
      computeCs mu K (oneMissing a) 1 0 = mu 0 / max |mu 0| 1 := by
  have hm : maxAbs (!![0; mu 0] : Matrix (Fin 2) (Fin 1) ℝ) = |mu 0| := by
    refine le_antisymm (Finset.sup'_le _ _ ?_) ?_
    · rintro ⟨i, v⟩ _
      fin_cases i <;> fin_cases v <;> simp
    · have := abs_le_maxAbs (!![0; mu 0] : Matrix (Fin 2) (Fin 1) ℝ) 1 0
      simpa using this
  unfold computeCs
  rw [oneMissing_rawCs, hm]
  simp

/-- C60 fails: with one variable whose only observed value is `a ≥ 1` and one missing sample, the
imputed value is exactly 1 after any number of iterations beyond the first, for EVERY `a`, whatever
the inner solver and the tolerance. -/
theorem C60_imputation_false (gl : Matrix (Fin 1) (Fin 1) ℝ → Matrix (Fin 1) (Fin 1) ℝ →
    Matrix (Fin 1) (Fin 1) ℝ) (logl : Matrix (Fin 1) (Fin 1) ℝ → Matrix (Fin 1) (Fin 1) ℝ → XF)
    (tol : ℝ) {a : ℝ} (ha : 1 ≤ a) {m : ℕ} (hm : 2 ≤ m) :
    ∃ K S C hist it w, missingGraphicalLasso gl logl tol (oneMissing a) m = .ok K S C hist it w ∧
      C 1 0 = 1 := by
  set body := missBody gl logl tol (oneMissing a) with hbody
  have h0 : stopAt body missInit 0 = false := by
    have : ∀ x : XF, ¬ XF.lt (XF.abs (XF.sub .ninf x)) (.fin tol) := by
      intro x
      cases x <;> simp [XF.sub, XF.neg, XF.add, XF.abs, XF.lt]
    unfold stopAt
    simp only [hbody, missBody, stateAt, missInit, decide_eq_false_iff_not]
    exact this _
  have hmeans : ∀ k, (stateAt body missInit (k + 1)).means 0 =
      a + (stateAt body missInit k).means 0 / max |(stateAt body missInit k).means 0| 1 := by
    intro k
    have hc := oneMissing_cs a (stateAt body missInit k).means (stateAt body missInit k).K
    have h1 : (stateAt body missInit (k + 1)).means 0 = ∑ i, (nanToNum (oneMissing a) +
      computeCs (stateAt body missInit k).means (stateAt body missInit k).K (oneMissing a)) i 0 := rfl
    rw [h1, Fin.sum_univ_two, Matrix.add_apply, Matrix.add_apply, hc.1, hc.2]
    simp [nanToNum, oneMissing]
  have hnn : ∀ k, 0 ≤ (stateAt body missInit k).means 0 ∧
      1 ≤ (stateAt body missInit (k + 1)).means 0 := by
    intro k
    induction k with
    | zero =>
      have e : (stateAt body missInit 0).means 0 = 0 := rfl
      rw [hmeans 0, e]
      simpa using ha
    | succ k ih =>
      have h2 := hmeans (k + 1)
      refine ⟨by linarith [ih.2], ?_⟩
      rw [h2]
      have : 0 ≤ (stateAt body missInit (k + 1)).means 0 /
          max |(stateAt body missInit (k + 1)).means 0| 1 :=
        div_nonneg (by linarith [ih.2]) (le_trans zero_le_one (le_max_right _ _))
      linarith
  have hr : ∃ K S C hist it w,
      missingGraphicalLasso gl logl tol (oneMissing a) m = .ok K S C hist it w ∧ 1 ≤ it := by
    unfold missingGraphicalLasso
    simp only
    rcases runLoop_spec body m missInit with ⟨j, _, _, hs, hr⟩ | ⟨_, hr⟩
    · rw [← hbody, hr]
      refine ⟨_, _, _, _, _, _, rfl, ?_⟩
      rcases j with _ | j
      · rw [h0] at hs; cases hs
      · omega
    · rw [← hbody, hr, if_neg (by omega)]
      exact ⟨_, _, _, _, _, _, rfl, by omega⟩
  obtain ⟨K, S, C, hist, it, w, h, hit⟩ := hr
  refine ⟨K, S, C, hist, it, w, h, ?_⟩
  obtain ⟨_, _, _, _, _, hC, _, _⟩ := missing_last gl logl tol (oneMissing a) h
  rw [hC, Matrix.add_apply, (oneMissing_cs a _ _).2]
  obtain ⟨k, rfl⟩ : ∃ k, it = k + 1 := ⟨it - 1, by omega⟩
  have h2 := (hnn k).2
  rw [← hbody, abs_of_nonneg (by linarith), max_eq_left h2, div_self (by linarith)]
  simp [nanToNum, oneMissing]

/-- Non-vacuity for C60: an inner solver that always returns the identity, two samples of two
variables with one missing entry; after one iteration the missing entry is 0, its conditional mean
under the identity and the zero vector. -/
example (tol : ℝ) : ∃ K S C hist it w, missingGraphicalLasso (N := Fin 2) (P := Fin 2) (fun _ _ => 1)
    (fun _ _ => .fin 0) tol (fun i v => if i = 0 ∧ v = 0 then none else some 1) 1 =
      .ok K S C hist it w ∧ C 0 1 = 1 := by
  have h : ∃ K S C hist it w, missingGraphicalLasso (N := Fin 2) (P := Fin 2) (fun _ _ => 1)
      (fun _ _ => .fin 0) tol (fun i v => if i = 0 ∧ v = 0 then none else some 1) 1 =
        .ok K S C hist it w := by
    unfold missingGraphicalLasso
    simp only
    rcases runLoop_spec (missBody (N := Fin 2) (P := Fin 2) (fun _ _ => 1)
      (fun _ _ => .fin 0) tol (fun i v => if i = 0 ∧ v = 0 then none else some 1)) 1 missInit with
      ⟨j, _, _, _, hr⟩ | ⟨_, hr⟩
    · rw [hr]; exact ⟨_, _, _, _, _, _, rfl⟩
    · rw [hr]; exact ⟨_, _, _, _, _, _, rfl⟩
  obtain ⟨K, S, C, hist, it, w, h⟩ := h
  exact ⟨K, S, C, hist, it, w, h, C60_observed_kept _ _ _ _ h (by simp)⟩

/-- Two loops whose bodies preserve a relation between the states and append the same records end
related, with the same records. -/
theorem forElse_rel {σ τ κ : Type*} {R : σ → τ → Prop} {b : ℕ → σ → σ × κ × Bool}
    {b' : ℕ → τ → τ × κ × Bool}
    (hb : ∀ k s s', R s s' → R (b k s).1 (b' k s').1 ∧ (b k s).2 = (b' k s').2) (fuel : ℕ) :
    ∀ (it : ℕ) (s : σ) (s' : τ), R s s' → ∀ (cs : List κ) (last : Option ℕ),
      R (forElse b fuel it s cs last).state (forElse b' fuel it s' cs last).state ∧
      (forElse b fuel it s cs last).checks = (forElse b' fuel it s' cs last).checks ∧
      (forElse b fuel it s cs last).broke = (forElse b' fuel it s' cs last).broke ∧
      (forElse b fuel it s cs last).lastIter = (forElse b' fuel it s' cs last).lastIter := by
  induction fuel with
  | zero => intro it s s' h cs last; exact ⟨h, rfl, rfl, rfl⟩
  | succ f ih =>
    intro it s s' h cs last
    obtain ⟨h1, h2⟩ := hb it s s' h
    simp only [forElse, ← h2]
    split
    · exact ⟨h1, rfl, rfl, rfl⟩
    · exact ih _ _ _ h1 _ _

/-! ### C92 -/

section
variable [Nonempty P]

theorem le_npMax [Nonempty N] (A : Matrix N P ℝ) (i : N) (v : P) : A i v ≤ npMax A :=
  Finset.le_sup' (fun p : N × P => A p.1 p.2) (Finset.mem_univ (i, v))

theorem npMax_attained [Nonempty N] (A : Matrix N P ℝ) : ∃ i v, npMax A = A i v := by
  obtain ⟨p, _, hp⟩ := Finset.exists_mem_eq_sup' (Finset.univ_nonempty (α := N × P))
    (fun p : N × P => A p.1 p.2)
  exact ⟨p.1, p.2, hp⟩

theorem npMax_smul [Nonempty N] {c : ℝ} (hc : 0 ≤ c) (A : Matrix N P ℝ) :
    npMax (c • A) = c * npMax A := by
  obtain ⟨i, v, h⟩ := npMax_attained A
  refine le_antisymm ?_ ?_
  · obtain ⟨i', v', h'⟩ := npMax_attained (c • A)
    rw [h']
    exact mul_le_mul_of_nonneg_left (le_npMax A i' v') hc
  · rw [h]
    exact le_npMax (c • A) i v

/-- The missing block of the inverse, padded with zeros. -/
noncomputable def padInv (K : Matrix P P ℝ) (X : MissData N P) (i : N) : Matrix P P ℝ :=
  fun v s => if h : (X i v).isNone = true ∧ (X i s).isNone = true then
    (missBlock K X i)⁻¹ ⟨v, h.1⟩ ⟨s, h.2⟩ else 0

theorem padInv_posSemidef {K : Matrix P P ℝ} (hK : K.PosDef) (X : MissData N P) (i : N) :
    (padInv K X i).PosSemidef := by
  classical
  have hB := (missBlock_posDef hK X i).inv.posSemidef
  set J : Matrix P (Miss X i) ℝ := fun v a => if v = a.1 then 1 else 0 with hJ
  have h : padInv K X i = J * (missBlock K X i)⁻¹ * Jᴴ := by
    ext v s
    simp only [Matrix.mul_apply, conjTranspose_apply, star_trivial]
    unfold padInv
    split
    · rename_i h
      rw [Finset.sum_eq_single ⟨s, h.2⟩, Finset.sum_eq_single ⟨v, h.1⟩]
      · simp [hJ]
      · intro a _ ha
        have : v ≠ a.1 := fun e => ha (Subtype.ext e.symm)
        simp [hJ, this]
      · simp
      · intro a _ ha
        have : s ≠ a.1 := fun e => ha (Subtype.ext e.symm)
        simp [hJ, this]
      · simp
    · rename_i h
      symm
      refine Finset.sum_eq_zero fun b _ => ?_
      by_cases hs : s = b.1
      · have hv : ∀ a : Miss X i, v ≠ a.1 := by
          intro a e
          exact h ⟨e ▸ a.2, hs ▸ b.2⟩
        have : ∑ a, J v a * (missBlock K X i)⁻¹ a b = 0 :=
          Finset.sum_eq_zero fun a _ => by simp [hJ, hv a]
        rw [this, zero_mul]
      · simp [hJ, hs]
  rw [h]
  exact hB.mul_mul_conjTranspose_same J

theorem rawEmpCov_eq (X : MissData N P) (K : Matrix P P ℝ) (cs : Matrix N P ℝ) :
    rawEmpCov X K cs = (nanToNum X + cs)ᵀ * (nanToNum X + cs) + ∑ i, padInv K X i := by
  ext v s
  rw [Matrix.add_apply, Matrix.mul_apply, Matrix.sum_apply, ← Finset.sum_add_distrib]
  unfold rawEmpCov
  refine Finset.sum_congr rfl fun i _ => ?_
  unfold padInv
  split
  · rename_i h
    have h1 : nanToNum X i v = 0 := by
      have := Option.isNone_iff_eq_none.mp h.1; simp [nanToNum, this]
    have h2 : nanToNum X i s = 0 := by
      have := Option.isNone_iff_eq_none.mp h.2; simp [nanToNum, this]
    rw [transpose_apply, Matrix.add_apply, Matrix.add_apply, h1, h2]
    ring
  · rw [transpose_apply, add_zero]

theorem rawEmpCov_posSemidef {K : Matrix P P ℝ} (hK : K.PosDef) (X : MissData N P)
    (cs : Matrix N P ℝ) : (rawEmpCov X K cs).PosSemidef := by
  rw [rawEmpCov_eq]
  refine PosSemidef.add ?_ (posSemidef_sum _ fun i _ => padInv_posSemidef hK X i)
  have := posSemidef_conjTranspose_mul_self (nanToNum X + cs)
  simpa [conjTranspose_eq_transpose_of_trivial] using this

/-- A largest entry of a PSD matrix lies on the diagonal. -/
theorem posSemidef_max_diag {A : Matrix P P ℝ} (hA : A.PosSemidef) :
    0 ≤ npMax A ∧ ∃ v, A v v = npMax A := by
  obtain ⟨i, j, h⟩ := npMax_attained A
  have hs : A j i = A i j := by
    have := congrFun (congrFun hA.isSymm'.eq i) j
    simpa [transpose_apply] using this
  have hd : ∀ v, 0 ≤ A v v := fun v => hA.diag_nonneg
  obtain ⟨v0⟩ := ‹Nonempty P›
  refine ⟨le_trans (hd v0) (le_npMax A v0 v0), ?_⟩
  have hq : 0 ≤ A i i + A j j - 2 * A i j := by
    have h1 := hA.dotProduct_mulVec_nonneg (Pi.single i 1 - Pi.single j 1)
    simp only [star_trivial, mulVec_sub, dotProduct_sub, sub_dotProduct,
      single_one_dotProduct, mulVec_single_one, col_apply] at h1
    linarith
  have h1 := le_npMax A i i
  have h2 := le_npMax A j j
  exact ⟨i, by linarith⟩

/-- C92 (part that holds): the returned `covariance_` is always symmetric positive semidefinite,
namely the completed data's second moment plus a PSD correction for the missing entries, divided by
its largest entry `c`; when `c` is not 0 all entries are at most 1 and 1 occurs on the diagonal.
For complete data the correction is 0. -/
theorem C92_covariance_partial [Nonempty N] (gl : Matrix P P ℝ → Matrix P P ℝ → Matrix P P ℝ)
    (logl : Matrix P P ℝ → Matrix P P ℝ → XF) (tol : ℝ) (X : MissData N P)
    (hgl : ∀ S K0, (gl S K0).PosDef) {m : ℕ} {K S : Matrix P P ℝ}
    {C : Matrix N P ℝ} {hist : List XF} {it : ℕ} {w : Bool}
    (h : missingGraphicalLasso gl logl tol X m = .ok K S C hist it w) :
    ∃ (E : Matrix P P ℝ) (c : ℝ), E.PosSemidef ∧ 0 ≤ c ∧ S = c⁻¹ • (Cᵀ * C + E) ∧ S.PosSemidef ∧
      ((∀ i v, X i v ≠ none) → E = 0) ∧
      (c ≠ 0 → (∀ v s, S v s ≤ 1) ∧ ∃ v, S v v = 1) := by
  obtain ⟨_, _, _, _, _, hC, hS, _⟩ := missing_last gl logl tol X h
  set s := stateAt (missBody gl logl tol X) missInit it with hs
  have hK : s.K.PosDef := miss_stateAt_posDef gl logl tol X hgl it
  set cs := computeCs s.means s.K X
  have hraw := rawEmpCov_posSemidef hK X cs
  obtain ⟨hc, v0, hv0⟩ := posSemidef_max_diag hraw
  refine ⟨∑ i, padInv s.K X i, npMax (rawEmpCov X s.K cs),
    posSemidef_sum _ fun i _ => padInv_posSemidef hK X i, hc, ?_, ?_, ?_, ?_⟩
  · rw [hS, hC, ← rawEmpCov_eq]; rfl
  · rw [hS]; exact hraw.smul (inv_nonneg.mpr hc)
  · intro hx
    refine Finset.sum_eq_zero fun i _ => ?_
    ext v t
    unfold padInv
    rw [dif_neg (fun hh => hx i v (Option.isNone_iff_eq_none.mp hh.1))]
    rfl
  · intro hne
    have hpos : 0 < npMax (rawEmpCov X s.K cs) := lt_of_le_of_ne hc (Ne.symm hne)
    refine ⟨fun v t => ?_, v0, ?_⟩
    · rw [hS]
      change (npMax _)⁻¹ * _ ≤ 1
      rw [inv_mul_le_iff₀ hpos, mul_one]
      exact le_npMax _ v t
    · rw [hS]
      change (npMax _)⁻¹ * _ = 1
      rw [hv0, inv_mul_cancel₀ hne]

/-- Complete data as input of the solver. -/
def observedAll (Y : Matrix N P ℝ) : MissData N P := fun i v => some (Y i v)

theorem observedAll_cs [Nonempty N] (Y : Matrix N P ℝ) (mu : P → ℝ) (K : Matrix P P ℝ) :
    computeCs mu K (observedAll Y) = 0 := by
  ext i v
  unfold computeCs
  rw [rawCs_obs _ _ _ (by simp [observedAll])]
  simp

theorem observedAll_empCov (Y : Matrix N P ℝ) (K : Matrix P P ℝ) :
    computeEmpCov (observedAll Y) K 0 = (npMax (Yᵀ * Y))⁻¹ • (Yᵀ * Y) := by
  have h : rawEmpCov (observedAll Y) K 0 = Yᵀ * Y := by
    have e : nanToNum (observedAll Y) = Y := by ext i v; simp [nanToNum, observedAll]
    have e2 : ∑ i, padInv K (observedAll Y) i = 0 := by
      refine Finset.sum_eq_zero fun i _ => ?_
      ext v s
      simp [padInv, observedAll]
    rw [rawEmpCov_eq, e2, e]; simp
  unfold computeEmpCov
  rw [h]

/-- C92 fails: `covariance_` and `precision_` do not depend on the scale of the data. Complete data
`Y` and `t • Y` give the same covariance and precision (whatever the inner solver), although the
documented empirical covariance `(1/n) YᵀY` grows with `t²`. -/
theorem C92_scale_false [Nonempty N] (gl : Matrix P P ℝ → Matrix P P ℝ → Matrix P P ℝ)
    (logl : Matrix P P ℝ → Matrix P P ℝ → XF) (tol : ℝ) (Y : Matrix N P ℝ) {t : ℝ} (ht : t ≠ 0)
    (m : ℕ) {K S : Matrix P P ℝ} {C : Matrix N P ℝ} {hist : List XF} {it : ℕ} {w : Bool}
    (h : missingGraphicalLasso gl logl tol (observedAll Y) m = .ok K S C hist it w) :
    missingGraphicalLasso gl logl tol (observedAll (t • Y)) m = .ok K S (t • C) hist it w ∧
    C = Y ∧ S = (npMax (Yᵀ * Y))⁻¹ • (Yᵀ * Y) := by
  have hscale : (npMax ((t • Y)ᵀ * (t • Y)))⁻¹ • ((t • Y)ᵀ * (t • Y)) =
      (npMax (Yᵀ * Y))⁻¹ • (Yᵀ * Y) := by
    have e : (t • Y)ᵀ * (t • Y) = (t ^ 2) • (Yᵀ * Y) := by
      rw [transpose_smul, smul_mul, Matrix.mul_smul, smul_smul, sq]
    rw [e, npMax_smul (sq_nonneg t), smul_smul]
    congr 1
    rw [mul_inv, mul_comm (t ^ 2)⁻¹, mul_assoc, inv_mul_cancel₀ (pow_ne_zero 2 ht), mul_one]
  have hrel := forElse_rel (R := fun s s' : MissState N P => s.K = s'.K ∧ s.loglik = s'.loglik ∧
      s.empCov = s'.empCov ∧ s.cs = 0 ∧ s'.cs = 0)
    (b := missBody gl logl tol (observedAll Y)) (b' := missBody gl logl tol (observedAll (t • Y)))
    (fun k s s' hs => by
      have e1 : computeEmpCov (observedAll Y) s.K (computeCs s.means s.K (observedAll Y)) =
          computeEmpCov (observedAll (t • Y)) s'.K
            (computeCs s'.means s'.K (observedAll (t • Y))) := by
        rw [observedAll_cs, observedAll_cs, observedAll_empCov, observedAll_empCov, hscale]
      unfold missBody
      simp only
      rw [e1, hs.1, hs.2.1]
      exact ⟨⟨rfl, rfl, rfl, observedAll_cs _ _ _, observedAll_cs _ _ _⟩, rfl⟩)
    m 0 missInit missInit ⟨rfl, rfl, rfl, rfl, rfl⟩ [] none
  obtain ⟨⟨r1, r2, r3, r4, r5⟩, h2, h3, h4⟩ := hrel
  have eY : ∀ Z : Matrix N P ℝ, nanToNum (observedAll Z) = Z := by
    intro Z; ext i v; simp [nanToNum, observedAll]
  have hlast := (missing_last gl logl tol (observedAll Y) h).2.2.2.2.2
  simp only [observedAll_cs, observedAll_empCov, eY, add_zero] at hlast
  refine ⟨?_, hlast.1, hlast.2.1⟩
  unfold missingGraphicalLasso runLoop at h ⊢
  simp only at h ⊢
  rw [← h4]
  rw [eY, r4] at h
  rw [eY, r5, ← r1, ← r3, ← h2, ← h3, add_zero]
  rw [add_zero] at h
  split at h
  · cases h
  · rename_i it' hit
    injection h with g1 g2 g3 g4 g5 g6
    simp only [hit, g1, g2, g4, g5, g6, ← g3]

/-- Non-vacuity for C92: one sample of one variable with value 2; the returned covariance is 1, the
documented one 4. -/
example : ∃ K C hist it w, missingGraphicalLasso (N := Fin 1) (P := Fin 1) (fun _ _ => 1)
    (fun _ _ => .fin 0) 1 (observedAll fun _ _ => 2) 1 = .ok K 1 C hist it w := by
  have h : ∃ K S C hist it w, missingGraphicalLasso (N := Fin 1) (P := Fin 1) (fun _ _ => 1)
      (fun _ _ => .fin 0) 1 (observedAll fun _ _ => 2) 1 = .ok K S C hist it w := by
    unfold missingGraphicalLasso
    simp only
    rcases runLoop_spec (missBody (N := Fin 1) (P := Fin 1) (fun _ _ => 1)
      (fun _ _ => .fin 0) 1 (observedAll fun _ _ => 2)) 1 missInit with ⟨j, _, _, _, hr⟩ | ⟨_, hr⟩
    · rw [hr]; exact ⟨_, _, _, _, _, _, rfl⟩
    · rw [hr]; exact ⟨_, _, _, _, _, _, rfl⟩
  obtain ⟨K, S, C, hist, it, w, h⟩ := h
  have hS := (C92_scale_false _ _ _ _ (one_ne_zero) 1 h).2.2
  refine ⟨K, C, hist, it, w, ?_⟩
  rw [h]
  congr 1
  rw [hS]
  ext i j
  set Y : Matrix (Fin 1) (Fin 1) ℝ := fun _ _ => 2 with hY
  obtain ⟨a, b, hab⟩ := npMax_attained (Yᵀ * Y)
  rw [hab, Subsingleton.elim a 0, Subsingleton.elim b 0, Subsingleton.elim i 0,
    Subsingleton.elim j 0]
  have h4 : (Yᵀ * Y) 0 0 = 4 := by
    rw [Matrix.mul_apply, Fin.sum_univ_one, transpose_apply]
    change (2 : ℝ) * 2 = 4
    norm_num
  rw [Matrix.smul_apply, h4]
  norm_num

/-! ### C93 -/

/-- C93 (part that holds): the solver performs between 1 and `max_iter` iterations, one record of the
history per iteration; it warns exactly when no iteration changed the log-likelihood by less than
`tol`, and then it used the whole budget; the loop stops at the first such iteration. The returned
count is one less than the number of iterations (`C93_n_iter_false`). -/
theorem C93_outcome_partial [Nonempty N] (gl : Matrix P P ℝ → Matrix P P ℝ → Matrix P P ℝ)
    (logl : Matrix P P ℝ → Matrix P P ℝ → XF) (tol : ℝ) (X : MissData N P) {m : ℕ}
    {K S : Matrix P P ℝ} {C : Matrix N P ℝ} {hist : List XF} {it : ℕ} {w : Bool}
    (h : missingGraphicalLasso gl logl tol X m = .ok K S C hist it w) :
    1 ≤ hist.length ∧ hist.length ≤ m ∧
    (w = true → hist.length = m ∧ ∀ d ∈ hist, ¬ XF.lt (XF.abs d) (.fin tol)) ∧
    (w = false → ∃ l d, hist = l ++ [d] ∧ XF.lt (XF.abs d) (.fin tol) ∧
      ∀ d' ∈ l, ¬ XF.lt (XF.abs d') (.fin tol)) := by
  obtain ⟨h1, h2, h3, h4, h5, _⟩ := missing_last gl logl tol X h
  have hst : ∀ k, stopAt (missBody gl logl tol X) missInit k = true ↔
      XF.lt (XF.abs (checkAt (missBody gl logl tol X) missInit k)) (.fin tol) := by
    intro k
    simp [stopAt, checkAt, missBody]
  have hst' : ∀ k, stopAt (missBody gl logl tol X) missInit k = false →
      ¬ XF.lt (XF.abs (checkAt (missBody gl logl tol X) missInit k)) (.fin tol) := by
    intro k hk hh
    rw [← hst k, hk] at hh
    cases hh
  have hl : hist.length = it + 1 := by rw [h5]; simp
  refine ⟨by omega, by omega, fun hw => ⟨by rw [hl, h4 hw], ?_⟩, fun hw => ?_⟩
  · intro d hd
    rw [h5, List.mem_map] at hd
    obtain ⟨k, hk, rfl⟩ := hd
    rw [List.mem_range] at hk
    apply hst'
    rcases Nat.lt_succ_iff_lt_or_eq.mp hk with hk | hk
    · exact h2 k hk
    · subst hk
      by_contra hh
      have := h3.mpr (by simpa using hh)
      rw [hw] at this
      cases this
  · refine ⟨(List.range it).map (checkAt (missBody gl logl tol X) missInit),
      checkAt (missBody gl logl tol X) missInit it, ?_, (hst it).mp (h3.mp hw), ?_⟩
    · rw [h5, List.range_succ, List.map_append]; rfl
    · intro d hd
      rw [List.mem_map] at hd
      obtain ⟨k, hk, rfl⟩ := hd
      exact hst' k (h2 k (List.mem_range.mp hk))

/-- C93 fails: the reported number of iterations is always one less than the number performed, and
`max_iter = 0` ends in an UnboundLocalError instead of a warning. -/
theorem C93_n_iter_false [Nonempty N] (gl : Matrix P P ℝ → Matrix P P ℝ → Matrix P P ℝ)
    (logl : Matrix P P ℝ → Matrix P P ℝ → XF) (tol : ℝ) (X : MissData N P) :
    missingGraphicalLasso gl logl tol X 0 = .unbound ∧
    ∀ m K S C hist it w, missingGraphicalLasso gl logl tol X m = .ok K S C hist it w →
      it + 1 = hist.length := by
  refine ⟨rfl, fun m K S C hist it w h => ?_⟩
  obtain ⟨_, _, _, _, h5, _⟩ := missing_last gl logl tol X h
  rw [h5]; simp

end

end Verif.Props
