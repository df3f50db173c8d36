import Verif.Lemmas.Direction
import Verif.Lemmas.Node
import Verif.Props.Screen
import Verif.Props.Certificate
import Verif.Props.TimeConv
import Verif.Props.LatentLogdet

/-! Property theorems C193: how the fitted covariances compare with the sample covariances. -/

namespace Verif.Props

open Verif.Model Verif.Spec Verif.Lemmas Matrix Filter Topology

set_option autoImplicit false
set_option linter.unusedSectionVars false

variable {n : Type*} [Fintype n] [DecidableEq n] {k : ℕ}

/-! ### One network -/

/-- C193 (graphical lasso). A positive definite `X` is the optimum exactly when the covariance `X⁻¹` it
stands for has the sample variances, differs from the sample covariances by at most `alpha`, and by
exactly `alpha`, in the direction of the edge, where `X` has an edge. -/
theorem C193_optimum_iff {S X : Matrix n n ℝ} {alpha : ℝ} (hal : 0 ≤ alpha) (hS : S.IsSymm) (hX : X.PosDef) :
    UniqueMin (PD n) (glObjective S alpha) X ↔
      (∀ i, X⁻¹ i i = S i i) ∧ (∀ i j, i ≠ j → |X⁻¹ i j - S i j| ≤ alpha) ∧
      ∀ i j, i ≠ j → (0 < X i j → X⁻¹ i j = S i j + alpha) ∧ (X i j < 0 → X⁻¹ i j = S i j - alpha) := by
  constructor
  · intro h
    refine ⟨gl_diag hal hS h.isMin, fun i j hij => ?_, fun i j hij => ?_⟩
    · rw [← Matrix.sub_apply]
      exact gl_dual_entry hal hS h.isMin hij
    · have h1 := gl_entry_move hal hS h.isMin (i := i) (j := j) (X i j)
      have h2 := gl_entry_move hal hS h.isMin (i := i) (j := j) (-X i j)
      rw [if_neg hij, Matrix.sub_apply] at h1 h2
      rw [add_neg_cancel, abs_zero, zero_sub] at h2
      rw [← two_mul, abs_mul, abs_two] at h1
      constructor
      · intro hx
        rw [abs_of_pos hx] at h1 h2
        have e : X i j * (X⁻¹ i j - S i j) = X i j * alpha := by linarith
        have := mul_left_cancel₀ hx.ne' e
        linarith
      · intro hx
        rw [abs_of_neg hx] at h1 h2
        have e : X i j * (X⁻¹ i j - S i j) = X i j * (-alpha) := by linarith
        have := mul_left_cancel₀ hx.ne e
        linarith
  · rintro ⟨hd, hb, hs⟩
    refine gl_optimal_of_subgrad (G := X⁻¹ - S) hS hX ?_ fun Y => ?_
    · rw [symmetrize_of_isSymm (by rw [IsSymm, transpose_sub, hX.inv.isSymm'.eq, hS.eq])]
      abel
    · unfold absSumOff frobInner
      rw [Finset.mul_sum, Finset.mul_sum, ← Finset.sum_add_distrib]
      refine Finset.sum_le_sum fun i _ => ?_
      rw [Finset.mul_sum, Finset.mul_sum, ← Finset.sum_add_distrib]
      refine Finset.sum_le_sum fun j _ => ?_
      simp only [Matrix.sub_apply]
      by_cases hij : i = j
      · subst hij
        rw [hd i]
        simp
      · simp only [hij, if_false]
        have hb' := abs_le.mp (hb i j hij)
        have hg : (X⁻¹ i j - S i j) * Y i j ≤ alpha * |Y i j| := by
          calc (X⁻¹ i j - S i j) * Y i j ≤ |(X⁻¹ i j - S i j) * Y i j| := le_abs_self _
            _ = |X⁻¹ i j - S i j| * |Y i j| := abs_mul _ _
            _ ≤ _ := mul_le_mul_of_nonneg_right (hb i j hij) (abs_nonneg _)
        have hx : alpha * |X i j| = (X⁻¹ i j - S i j) * X i j := by
          rcases lt_trichotomy (X i j) 0 with hx | hx | hx
          · rw [(hs i j hij).2 hx, abs_of_neg hx]; ring
          · rw [hx]; simp
          · rw [(hs i j hij).1 hx, abs_of_pos hx]; ring
        rw [hx]
        linarith

/-- C193 (graphical lasso), the hypotheses: a 2×2 problem with an edge. -/
example : ∃ (S X : Matrix (Fin 2) (Fin 2) ℝ), S.IsSymm ∧ X.PosDef ∧
    UniqueMin (PD (Fin 2)) (glObjective S 1) X := by
  obtain ⟨X, hX⟩ := gl_exists_min (S := (1 : Matrix (Fin 2) (Fin 2) ℝ)) (alpha := 1) PosSemidef.one
    (fun i => by simp) one_pos
  exact ⟨1, X, transpose_one, hX.1, gl_uniqueMin transpose_one zero_le_one hX⟩

/-- C193 (graphical lasso), every call: whatever the penalty parameter does, after at least two passes there is a
positive definite matrix, at the recorded primal residual from the returned precision, whose inverse has the sample
variances up to the recorded dual residual, and the sample covariances up to `alpha` plus that residual. -/
theorem C193_every_call {eigh : Eigh n} (he : IsEighOracle eigh) (a : GLArgs n) (hS : a.empCov.IsSymm)
    (hal : 0 ≤ a.alpha) (hor : a.overRelax = 1) (hi : 0 < a.rhoOptions.tauInc) (hd : 0 < a.rhoOptions.tauDec)
    (Z0 : Matrix n n ℝ) {rho : ℝ} (hr : 0 < rho) (m : ℕ) {Z C : Matrix n n ℝ}
    {hist : List GLCheck} {it : ℕ} {warned : Bool}
    (hcall : graphicalLasso eigh a Z0 rho m true true = .ok Z C (some hist) (some it) warned) (hit : 1 ≤ it) :
    ∃ (K : Matrix n n ℝ) (c : GLCheck), hist.getLast? = some c ∧ K.PosDef ∧ froNorm (K - Z) = c.rnorm ∧
      (∀ i, |K⁻¹ i i - a.empCov i i| ≤ c.snorm) ∧
      ∀ i j, i ≠ j → |K⁻¹ i j - a.empCov i j| ≤ a.alpha + c.snorm := by
  have hcall' := hcall
  unfold graphicalLasso at hcall'
  simp only [if_true] at hcall'
  cases hl : (runLoop (glBody eigh a) m (glInit Z0 rho)).lastIter with
  | none => rw [hl] at hcall'; simp at hcall'
  | some j =>
    rw [hl] at hcall'
    simp only [GLReturn.ok.injEq, Option.some.injEq] at hcall'
    obtain ⟨h1, -, h3, h4, h5⟩ := hcall'
    obtain ⟨l1, l2, l3⟩ := runLoop_last (glBody eigh a) m (glInit Z0 rho) hl
    obtain ⟨i, rfl⟩ : ∃ i, j = i + 1 := ⟨j - 1, by omega⟩
    set s := stateAt (glBody eigh a) (glInit Z0 rho) (i + 1) with hs
    have hrs : 0 < s.rho := (gl_run_facts (eigh := eigh) a hi hd Z0 hr (i + 1)).1
    have hold : s.Zold = s.Z := (gl_run_facts (eigh := eigh) a hi hd Z0 hr i).2
    have hst : stateAt (glBody eigh a) (glInit Z0 rho) (i + 1 + 1) = (glBody eigh a (i + 1) s).1 := rfl
    have hZ : Z = nextZ eigh a s := by
      rw [← h1, l1, hst, glBody_Z, hor, glKhat_one]
      rfl
    have hc : checkAt (glBody eigh a) (glInit Z0 rho) (i + 1) = (glBody eigh a (i + 1) s).2.1 := rfl
    have hrn : (glBody eigh a (i + 1) s).2.1.rnorm = froNorm (glK eigh a.empCov s.rho s.Z s.U - nextZ eigh a s) := by
      unfold glBody nextZ; simp only [hor, glKhat_one]
    have hsn : (glBody eigh a (i + 1) s).2.1.snorm = s.rho * froNorm (nextZ eigh a s - s.Z) := by
      unfold glBody nextZ; simp only [hor, glKhat_one, hold]
    have hinv := glK_inv he hS hrs s.Z s.U
    have hKs := (glK_posDef he hS hrs s.Z s.U).isSymm'
    have hU : ∀ p q, |nextU eigh a s p q| ≤ if p = q then 0 else a.alpha / s.rho := by
      intro p q
      have e : nextU eigh a s p q = (glK eigh a.empCov s.rho s.Z s.U + s.U) p q
          - softScalar ((glK eigh a.empCov s.rho s.Z s.U + s.U) p q) (if p = q then 0 else a.alpha / s.rho) := by
        unfold nextU nextZ glZ
        rw [← softOff_apply, Matrix.add_apply, Matrix.sub_apply, Matrix.add_apply]
        ring
      rw [e]
      refine soft_dist_le ?_ _
      split
      · exact le_rfl
      · positivity
    have hentry : ∀ p q, (glK eigh a.empCov s.rho s.Z s.U)⁻¹ p q - a.empCov p q
        = s.rho * (1 / 2 * (nextU eigh a s p q + nextU eigh a s q p))
          + s.rho * (1 / 2 * ((nextZ eigh a s - s.Z) p q + (nextZ eigh a s - s.Z) q p)) := by
      intro p q
      rw [hinv]
      have hk := hKs.apply p q
      unfold nextU symmetrize
      simp only [Matrix.add_apply, Matrix.sub_apply, Matrix.smul_apply, transpose_apply, smul_eq_mul, hk]
      ring
    have hz : ∀ p q, |s.rho * (1 / 2 * ((nextZ eigh a s - s.Z) p q + (nextZ eigh a s - s.Z) q p))|
        ≤ s.rho * froNorm (nextZ eigh a s - s.Z) := by
      intro p q
      rw [abs_mul, abs_of_pos hrs]
      refine mul_le_mul_of_nonneg_left ?_ hrs.le
      have h1 := abs_le.mp (abs_entry_le_fro (nextZ eigh a s - s.Z) p q)
      have h2 := abs_le.mp (abs_entry_le_fro (nextZ eigh a s - s.Z) q p)
      rw [abs_le]
      constructor <;> linarith [h1.1, h1.2, h2.1, h2.2]
    refine ⟨glK eigh a.empCov s.rho s.Z s.U, _, by rw [← h3]; exact l2, glK_posDef he hS hrs _ _, ?_,
      fun p => ?_, fun p q hpq => ?_⟩
    · rw [hc, hrn, hZ]
    · rw [hc, hsn, hentry]
      have h0 := hU p p
      rw [if_pos rfl] at h0
      have h00 := abs_nonpos_iff.mp h0
      rw [h00]
      simpa using hz p p
    · rw [hc, hsn, hentry]
      have u1 := hU p q
      have u2 := hU q p
      rw [if_neg hpq] at u1
      rw [if_neg (Ne.symm hpq)] at u2
      refine (abs_add_le _ _).trans (add_le_add ?_ (hz p q))
      rw [abs_mul, abs_of_pos hrs]
      have : |1 / 2 * (nextU eigh a s p q + nextU eigh a s q p)| ≤ a.alpha / s.rho := by
        have h1 := abs_le.mp u1
        have h2 := abs_le.mp u2
        rw [abs_le]
        constructor <;> linarith [h1.1, h1.2, h2.1, h2.2]
      calc s.rho * |1 / 2 * (nextU eigh a s p q + nextU eigh a s q p)| ≤ s.rho * (a.alpha / s.rho) :=
            mul_le_mul_of_nonneg_left this hrs.le
        _ = a.alpha := by field_simp

/-! ### Sequences of networks -/

/-- A coupling of the networks of a sequence that only looks at their differences. -/
def ShiftFree (F : (Fin k → Matrix n n ℝ) → ℝ) : Prop := ∀ K H, F (fun t => K t + H) = F K

theorem chain_shiftFree {T : ℕ} (psi : Matrix n n ℝ → ℝ) (c : ℝ) :
    ShiftFree (fun K : Fin (T + 1) → Matrix n n ℝ => c * chainCoupling psi K) := by
  intro K H
  unfold chainCoupling
  simp only [add_sub_add_right_eq_sub]

theorem kernel_shiftFree (kernel : Fin k → Fin k → ℝ) (psi : Matrix n n ℝ → ℝ) :
    ShiftFree (fun K : Fin k → Matrix n n ℝ => kernelCoupling kernel psi K) := by
  intro K H
  unfold kernelCoupling
  simp only [add_sub_add_right_eq_sub]

/-- Changing one entry changes an entrywise penalty by the change at that entry. -/
theorem entrywise_move (f : n → n → ℝ → ℝ) (X : Matrix n n ℝ) (i j : n) (c : ℝ) :
    ∑ a, ∑ b, f a b ((X + c • Matrix.single i j (1 : ℝ) : Matrix n n ℝ) a b) = (∑ a, ∑ b, f a b (X a b))
      + (f i j (X i j + c) - f i j (X i j)) := by
  rw [← sub_eq_iff_eq_add', ← Finset.sum_sub_distrib, Finset.sum_eq_single i]
  · rw [← Finset.sum_sub_distrib, Finset.sum_eq_single j]
    · simp
    · intro b _ hb
      rw [Matrix.add_apply, Matrix.smul_apply, Matrix.single_apply_of_ne _ _ _ _ _ (by tauto)]
      simp
    · simp
  · intro b _ hb
    rw [← Finset.sum_sub_distrib]
    refine Finset.sum_eq_zero fun c _ => ?_
    rw [Matrix.add_apply, Matrix.smul_apply, Matrix.single_apply_of_ne _ _ _ _ _ (by tauto)]
    simp
  · simp

/-- The penalties of the estimators: absolute values, with weight `e` on the diagonal (`0` or `1`). -/
def diagPen (e : ℝ) (X : Matrix n n ℝ) : ℝ := ∑ a, ∑ b, if a = b then e * |X a b| else |X a b|

theorem diagPen_zero : (diagPen 0 : Matrix n n ℝ → ℝ) = absSumOff := by
  funext X
  unfold diagPen absSumOff
  refine Finset.sum_congr rfl fun a _ => Finset.sum_congr rfl fun b _ => ?_
  split <;> simp

theorem diagPen_one : (diagPen 1 : Matrix n n ℝ → ℝ) = absSumMat := by
  funext X
  unfold diagPen absSumMat
  refine Finset.sum_congr rfl fun a _ => Finset.sum_congr rfl fun b _ => ?_
  split <;> simp

theorem diagPen_move (e : ℝ) (X : Matrix n n ℝ) (i j : n) (c : ℝ) :
    diagPen e (X + c • Matrix.single i j 1) = diagPen e X
      + ((if i = j then e else 1) * (|X i j + c| - |X i j|)) := by
  have h := entrywise_move (fun a b x => if a = b then e * |x| else |x|) X i j c
  unfold diagPen
  rw [h]
  by_cases hij : i = j
  · simp only [hij, if_true]; ring
  · simp only [hij, if_false]; ring

theorem diagPen_convex {e : ℝ} (he : 0 ≤ e) : ConvexPen (diagPen e : Matrix n n ℝ → ℝ) := by
  intro X Y t h0 h1
  unfold diagPen
  rw [Finset.mul_sum, Finset.mul_sum, ← Finset.sum_add_distrib]
  refine Finset.sum_le_sum fun a _ => ?_
  rw [Finset.mul_sum, Finset.mul_sum, ← Finset.sum_add_distrib]
  refine Finset.sum_le_sum fun b _ => ?_
  have h : |(X + t • (Y - X)) a b| ≤ (1 - t) * |X a b| + t * |Y a b| := by
    have e1 : (X + t • (Y - X)) a b = (1 - t) * X a b + t * Y a b := by
      simp only [Matrix.add_apply, Matrix.smul_apply, Matrix.sub_apply, smul_eq_mul]; ring
    rw [e1]
    refine (abs_add_le _ _).trans (le_of_eq ?_)
    rw [abs_mul, abs_mul, abs_of_nonneg h0, abs_of_nonneg (by linarith : 0 ≤ 1 - t)]
  split
  · have := mul_le_mul_of_nonneg_left h he
    linarith
  · exact h

/-- The common direction of all networks of a sequence. -/
theorem shift_direction {S R : Fin k → Matrix n n ℝ} {w : Fin k → ℝ} (hS : ∀ t, (S t).IsSymm)
    (hw : ∀ t, 0 ≤ w t) (hR : ∀ t, (R t).PosDef) {pen : Matrix n n ℝ → ℝ} (hpen : ConvexPen pen) {alpha : ℝ}
    (hal : 0 ≤ alpha) {K : Fin k → Matrix n n ℝ} {H : Matrix n n ℝ} (hH : H.IsSymm)
    (hmin : ∀ r : ℝ, 0 < r → (∀ t, (R t + r • H).PosDef) → negLogLik S w R + alpha * ∑ t, pen (K t)
      ≤ negLogLik S w (fun t => R t + r • H) + alpha * ∑ t, pen (K t + r • H)) :
    0 ≤ frobInner (∑ t, w t • (S t - (R t)⁻¹)) H + alpha * ∑ t, (pen (K t + H) - pen (K t)) := by
  have h := loglik_direction (H := fun _ => H) (c := alpha * ∑ t, (pen (K t + H) - pen (K t))) hS hw hR (fun _ => hH)
    fun r h0 h1 hr => by
      have h2 := hmin r h0 hr
      have h3 : ∑ t, pen (K t + r • H) ≤ ∑ t, pen (K t) + r * ∑ t, (pen (K t + H) - pen (K t)) := by
        rw [Finset.mul_sum, ← Finset.sum_add_distrib]
        refine Finset.sum_le_sum fun t _ => ?_
        have := hpen (K t) (K t + H) r h0.le h1
        rw [add_sub_cancel_left] at this
        linarith
      have := mul_le_mul_of_nonneg_left h3 hal
      linarith
  rw [frobInner_sum_left]
  simp only [frobInner_smul_left]
  exact h

theorem exists_pos_le_all (f : Fin k → ℝ) (hf : ∀ t, 0 < f t) : ∃ d, 0 < d ∧ ∀ t, d ≤ f t := by
  have h0 : 0 ≤ ∑ t, 1 / f t := Finset.sum_nonneg fun t _ => (one_div_pos.mpr (hf t)).le
  refine ⟨1 / (∑ t, 1 / f t + 1), by positivity, fun t => ?_⟩
  have h1 : 1 / f t ≤ ∑ t, 1 / f t :=
    Finset.single_le_sum (f := fun t => 1 / f t) (fun t _ => (one_div_pos.mpr (hf t)).le) (Finset.mem_univ t)
  rw [div_le_iff₀ (by positivity)]
  rw [div_le_iff₀ (hf t)] at h1
  nlinarith [hf t]

theorem frobInner_single (A : Matrix n n ℝ) (i j : n) : frobInner A (Matrix.single i j (1 : ℝ)) = A i j := by
  unfold frobInner
  rw [Finset.sum_eq_single i, Finset.sum_eq_single j]
  · simp
  · intro b _ hb
    rw [Matrix.single_apply_of_ne _ _ _ _ _ (by tauto), mul_zero]
  · simp
  · intro b _ hb
    refine Finset.sum_eq_zero fun c _ => ?_
    rw [Matrix.single_apply_of_ne _ _ _ _ _ (by tauto), mul_zero]
  · simp

/-- What the condition along common directions says entry by entry. -/
theorem shift_entries {S R K : Fin k → Matrix n n ℝ} {w : Fin k → ℝ} (hS : ∀ t, (S t).IsSymm)
    (hw : ∀ t, 0 ≤ w t) (hR : ∀ t, (R t).PosDef) (hK : ∀ t i, 0 < K t i i) {e : ℝ} (he : 0 ≤ e) {alpha : ℝ}
    (hal : 0 ≤ alpha)
    (hmin : ∀ (H : Matrix n n ℝ) (r : ℝ), H.IsSymm → 0 < r → (∀ t, (R t + r • H).PosDef) →
      negLogLik S w R + alpha * ∑ t, diagPen e (K t)
        ≤ negLogLik S w (fun t => R t + r • H) + alpha * ∑ t, diagPen e (K t + r • H)) :
    (∀ i, ∑ t, w t * ((R t)⁻¹ i i - S t i i) = k * (e * alpha)) ∧
    ∀ i j, i ≠ j → |∑ t, w t * ((R t)⁻¹ i j - S t i j)| ≤ k * alpha := by
  set G := ∑ t, w t • (S t - (R t)⁻¹) with hG
  have hGe : ∀ i j, G i j = -∑ t, w t * ((R t)⁻¹ i j - S t i j) := by
    intro i j
    rw [hG, Matrix.sum_apply, ← Finset.sum_neg_distrib]
    refine Finset.sum_congr rfl fun t _ => ?_
    simp only [Matrix.smul_apply, Matrix.sub_apply, smul_eq_mul]
    ring
  have hGs : ∀ i j, G i j = G j i := by
    intro i j
    rw [hGe, hGe]
    refine congrArg _ (Finset.sum_congr rfl fun t _ => ?_)
    rw [(hR t).inv.isSymm'.apply i j, (hS t).apply i j]
  have key := fun (H : Matrix n n ℝ) (hH : H.IsSymm) =>
    shift_direction hS hw hR (diagPen_convex he) hal hH fun r h0 hr => hmin H r hH h0 hr
  constructor
  · intro i
    obtain ⟨d, hd0, hd⟩ := exists_pos_le_all (fun t => K t i i) fun t => hK t i
    have hsym : ∀ c : ℝ, (c • Matrix.single i i (1 : ℝ) : Matrix n n ℝ).IsSymm := by
      intro c
      rw [IsSymm, transpose_smul, Matrix.transpose_single]
    have hval : ∀ c : ℝ, |c| ≤ d →
        0 ≤ c * G i i + alpha * (k * (e * c)) := by
      intro c hc
      have h := key _ (hsym c)
      rw [← hG, frobInner_smul_right, frobInner_single] at h
      have h1 : ∀ t, diagPen e (K t + c • Matrix.single i i 1) - diagPen e (K t) = e * c := by
        intro t
        rw [diagPen_move, if_pos rfl]
        have hb := abs_le.mp hc
        have := hd t
        rw [abs_of_nonneg (by linarith : 0 ≤ K t i i + c), abs_of_pos (hK t i)]
        ring
      rw [Finset.sum_congr rfl fun t _ => h1 t, Finset.sum_const, Finset.card_univ, Fintype.card_fin,
        nsmul_eq_mul] at h
      exact h
    have h1 := hval d (by rw [abs_of_pos hd0])
    have h2 := hval (-d) (by rw [abs_neg, abs_of_pos hd0])
    have h3 : d * (G i i + k * (e * alpha)) = 0 := le_antisymm (by linarith) (by linarith)
    have h4 := (mul_eq_zero.mp h3).resolve_left hd0.ne'
    rw [hGe] at h4
    linarith
  · intro i j hij
    have hsym : ∀ c : ℝ, (c • Matrix.single i j (1 : ℝ) + c • Matrix.single j i (1 : ℝ) : Matrix n n ℝ).IsSymm := by
      intro c
      rw [IsSymm, transpose_add, transpose_smul, transpose_smul, Matrix.transpose_single, Matrix.transpose_single,
        add_comm]
    have hval : ∀ c : ℝ, |c| = 1 → 0 ≤ 2 * c * G i j + alpha * (k * 2) := by
      intro c hc
      have h := key _ (hsym c)
      rw [← hG, frobInner_add_right, frobInner_smul_right, frobInner_smul_right, frobInner_single, frobInner_single,
        ← hGs i j] at h
      have h1 : ∑ t, (diagPen e (K t + (c • Matrix.single i j 1 + c • Matrix.single j i 1)) - diagPen e (K t))
          ≤ ∑ _t : Fin k, (2 : ℝ) := by
        refine Finset.sum_le_sum fun t _ => ?_
        rw [← add_assoc, diagPen_move, diagPen_move, if_neg hij, if_neg (Ne.symm hij)]
        have b1 := abs_add_le (K t i j) c
        have b2 := abs_add_le ((K t + c • Matrix.single i j (1 : ℝ) : Matrix n n ℝ) j i) c
        linarith
      rw [Finset.sum_const, Finset.card_univ, Fintype.card_fin, nsmul_eq_mul] at h1
      have := mul_le_mul_of_nonneg_left h1 hal
      linarith
    have h1 := hval 1 abs_one
    have h2 := hval (-1) (by rw [abs_neg, abs_one])
    rw [hGe] at h1 h2
    rw [abs_le]
    constructor <;> linarith

/-- C193 (sequences). For every coupling of the times that looks only at differences of networks (any `psi`, any
kernel) and every optimum of likelihood + alpha * (absolute values, diagonal with weight `e`) + coupling: summed
over the times with the sample sizes as weights, the fitted variances exceed the sample variances by exactly
`T e alpha`, and the covariances differ by at most `T alpha`. -/
theorem C193_pooled {S X : Fin k → Matrix n n ℝ} {w : Fin k → ℝ} (hS : ∀ t, (S t).IsSymm)
    (hw : ∀ t, 0 ≤ w t) {e : ℝ} (he : 0 ≤ e) {alpha : ℝ} (hal : 0 ≤ alpha) {F : (Fin k → Matrix n n ℝ) → ℝ}
    (hF : ShiftFree F)
    (hX : IsMin (PDSeq k n) (fun Y => negLogLik S w Y + alpha * ∑ t, diagPen e (Y t) + F Y) X) :
    (∀ i, ∑ t, w t * ((X t)⁻¹ i i - S t i i) = k * (e * alpha)) ∧
    ∀ i j, i ≠ j → |∑ t, w t * ((X t)⁻¹ i j - S t i j)| ≤ k * alpha := by
  have hXp : ∀ t, (X t).PosDef := hX.1
  refine shift_entries hS hw hXp (fun t i => (hXp t).diag_pos) he hal fun H r hH h0 hr => ?_
  have h := hX.2 (fun t => X t + r • H) hr
  simp only [hF X (r • H)] at h
  linarith

/-- C193 (`time_graphical_lasso` and `kernel_time_graphical_lasso`). The problem both solvers converge to the
optimum of (C103, C102) penalises the diagonal too: the fitted variances, averaged over the times with the sample
sizes as weights, are all too large, by exactly `alpha` times the number of times over the total sample size. -/
theorem C193_variance_false {T : ℕ} {S X : Fin (T + 1) → Matrix n n ℝ} {w : Fin (T + 1) → ℝ}
    (hS : ∀ t, (S t).IsSymm) (hw : ∀ t, 0 ≤ w t) {alpha beta : ℝ} (hal : 0 < alpha) {psi : Matrix n n ℝ → ℝ}
    (hX : IsMin (PDSeq (T + 1) n) (timeObjective S w alpha beta absSumMat psi) X) (i : n) :
    ∑ t, w t * (X t)⁻¹ i i = ∑ t, w t * S t i i + (T + 1) * alpha ∧
    ∑ t, w t * S t i i < ∑ t, w t * (X t)⁻¹ i i := by
  have h := (C193_pooled hS hw zero_le_one hal.le (chain_shiftFree psi beta) (X := X) (by
    rw [diagPen_one]; exact hX)).1 i
  have e : ∑ t, w t * ((X t)⁻¹ i i - S t i i) = ∑ t, w t * (X t)⁻¹ i i - ∑ t, w t * S t i i := by
    rw [← Finset.sum_sub_distrib]
    exact Finset.sum_congr rfl fun t _ => by ring
  rw [e] at h
  push_cast at h
  constructor
  · linarith
  · have : 0 < ((T : ℝ) + 1) * alpha := by positivity
    linarith

/-- C193, the documented problem (off-diagonal penalty): there the averages of the variances are those of the data. -/
theorem C193_documented {T : ℕ} {S X : Fin (T + 1) → Matrix n n ℝ} {w : Fin (T + 1) → ℝ}
    (hS : ∀ t, (S t).IsSymm) (hw : ∀ t, 0 ≤ w t) {alpha beta : ℝ} (hal : 0 ≤ alpha) {psi : Matrix n n ℝ → ℝ}
    (hX : IsMin (PDSeq (T + 1) n) (timeObjective S w alpha beta absSumOff psi) X) :
    (∀ i, ∑ t, w t * (X t)⁻¹ i i = ∑ t, w t * S t i i) ∧
    ∀ i j, i ≠ j → |∑ t, w t * ((X t)⁻¹ i j - S t i j)| ≤ (T + 1) * alpha := by
  have h := C193_pooled hS hw le_rfl hal (chain_shiftFree psi beta) (X := X) (by
    rw [diagPen_zero]; exact hX)
  refine ⟨fun i => ?_, fun i j hij => ?_⟩
  · have h1 := h.1 i
    have e : ∑ t, w t * ((X t)⁻¹ i i - S t i i) = ∑ t, w t * (X t)⁻¹ i i - ∑ t, w t * S t i i := by
      rw [← Finset.sum_sub_distrib]
      exact Finset.sum_congr rfl fun t _ => by ring
    rw [e] at h1
    simp only [zero_mul, mul_zero] at h1
    linarith
  · have := h.2 i j hij
    push_cast at this
    exact this

/-- C193 (kernel version), the same excess. -/
theorem C193_kernel_variance_false {S X : Fin k → Matrix n n ℝ} {w : Fin k → ℝ}
    (hS : ∀ t, (S t).IsSymm) (hw : ∀ t, 0 ≤ w t) {alpha : ℝ} (hal : 0 ≤ alpha) {kernel : Fin k → Fin k → ℝ}
    {psi : Matrix n n ℝ → ℝ} (hX : IsMin (PDSeq k n) (kernelObjective S w alpha kernel absSumMat psi) X) (i : n) :
    ∑ t, w t * (X t)⁻¹ i i = ∑ t, w t * S t i i + k * alpha := by
  have h := (C193_pooled hS hw zero_le_one hal (kernel_shiftFree kernel psi) (X := X) (by
    rw [diagPen_one]; exact hX)).1 i
  have e : ∑ t, w t * ((X t)⁻¹ i i - S t i i) = ∑ t, w t * (X t)⁻¹ i i - ∑ t, w t * S t i i := by
    rw [← Finset.sum_sub_distrib]
    exact Finset.sum_congr rfl fun t _ => by ring
  rw [e] at h
  linarith

/-- C193 (`time_graphical_lasso`), whole calls: for every penalty of the differences with its proximal operator,
every sample and every `alpha > 0`, the precisions returned with small tolerances are as close as wanted to a
sequence whose averaged variances all exceed those of the data by the same positive amount. -/
theorem C193_time_call_false [Nonempty n] {T : ℕ} {eigh : Eigh n} (he : IsEighOracle eigh)
    (a : TGLArgs T n) (hS : ∀ t, (a.empCov t).PosSemidef)
    (hn : ∀ t, 0 < a.nSamples t) (hal : 0 < a.alpha) (hbe : 0 ≤ a.beta) (hconv : ConvexPen a.psi)
    (hpos : ∀ X, 0 ≤ a.psi X)
    (hprox : IsProxOf a.psi a.prox) (hi : a.rhoOptions.tauInc = 1) (hd : a.rhoOptions.tauDec = 1)
    (hst : a.stopAt = none) (K0 : Batch (T + 1) n) {rho : ℝ} (hr : 0 < rho) :
    ∃ X, X ∈ PDSeq (T + 1) n ∧
      (∀ i, ∑ t, a.nSamples t * (X t)⁻¹ i i = ∑ t, a.nSamples t * a.empCov t i i + (T + 1) * a.alpha) ∧
      ∀ ε, 0 < ε → ∃ δ, 0 < δ ∧ ∃ M, ∀ tol rtol, 0 ≤ tol → tol ≤ δ → 0 ≤ rtol → rtol ≤ δ → ∀ m, M ≤ m →
        ∀ rh rn, ∃ Z h it w,
          timeGraphicalLasso eigh { a with tol := tol, rtol := rtol } K0 rho m rh rn = .ok Z h it w
            ∧ CloseSeq ε Z X := by
  obtain ⟨X, hX, -, hc⟩ := C103_time_converges he a hS hn hal hbe hconv hpos hprox hi hd hst K0 hr
  exact ⟨X, hX.1, fun i => (C193_variance_false (fun t => (hS t).isSymm') (fun t => (hn t).le) hal hX.isMin i).1, hc⟩

/-- C193 (sequences), the hypotheses: two times, two variables, a penalty on the differences. -/
example : ∃ (S : Fin 2 → Matrix (Fin 2) (Fin 2) ℝ) (X : Fin 2 → Matrix (Fin 2) (Fin 2) ℝ), (∀ t, (S t).IsSymm) ∧
    IsMin (PDSeq 2 (Fin 2)) (timeObjective (T := 1) S (fun _ => 3) 1 1 absSumMat absSumMat) X := by
  obtain ⟨X, hX⟩ := exists_pairTime_min (chainPairs 1) (S := fun _ => (1 : Matrix (Fin 2) (Fin 2) ℝ))
    (nS := fun _ => 3) (alpha := 1) (w := fun _ => 1) (psi := absSumMat) (fun _ => PosSemidef.one)
    (fun _ => by norm_num) one_pos (fun _ => zero_le_one) absSumMat_convexPen absSumMat_nonneg'
  refine ⟨fun _ => 1, X, fun _ => transpose_one, ?_⟩
  have e : timeObjective (T := 1) (fun _ => (1 : Matrix (Fin 2) (Fin 2) ℝ)) (fun _ => 3) 1 1 absSumMat absSumMat
      = pairTimeObjective (chainPairs 1) (fun _ => 1) (fun _ => 3) 1 (fun _ => 1) absSumMat := by
    funext K
    unfold timeObjective pairTimeObjective negLogLik chainPairs
    simp only [one_mul, add_assoc]
  rw [e]
  exact hX

/-! ### Latent variables -/

/-- C193 (latent estimators, sequences). `R_t = K_t - L_t` is the precision of the observed variables. For every
optimum and every pair of couplings that look only at differences: pooled over the times, the variances of `R_t⁻¹`
exceed those of the data by `T e alpha`, the covariances differ by at most `T alpha`, and no direction has less
fitted variance than sample variance by more than `T tau`. -/
theorem C193_latent_pooled {S K L : Fin k → Matrix n n ℝ} {w : Fin k → ℝ} (hS : ∀ t, (S t).IsSymm)
    (hw : ∀ t, 0 ≤ w t) {e : ℝ} (he : 0 ≤ e) {alpha tau : ℝ} (hal : 0 ≤ alpha)
    {F G : (Fin k → Matrix n n ℝ) → ℝ} (hF : ShiftFree F) (hG : ShiftFree G)
    (hX : IsMin (LatentSeqFeasible k n) (fun p => negLogLik S w (fun t => p.1 t - p.2 t)
      + alpha * ∑ t, diagPen e (p.1 t) + tau * ∑ t, trace (p.2 t) + F p.1 + G p.2) (K, L)) :
    (∀ i, ∑ t, w t * ((K t - L t)⁻¹ i i - S t i i) = k * (e * alpha)) ∧
    (∀ i j, i ≠ j → |∑ t, w t * ((K t - L t)⁻¹ i j - S t i j)| ≤ k * alpha) ∧
    ∀ v : n → ℝ, ∑ t, w t * (v ⬝ᵥ S t *ᵥ v) ≤ ∑ t, w t * (v ⬝ᵥ (K t - L t)⁻¹ *ᵥ v) + k * tau * (v ⬝ᵥ v) := by
  have hR : ∀ t, (K t - L t).PosDef := fun t => (hX.1 t).1
  have hL : ∀ t, (L t).PosSemidef := fun t => (hX.1 t).2
  have hK : ∀ t i, 0 < K t i i := by
    intro t i
    have h : (K t).PosDef := by
      have := (hR t).add_posSemidef (hL t)
      rwa [sub_add_cancel] at this
    exact h.diag_pos
  have h12 := shift_entries (R := fun t => K t - L t) hS hw hR hK he hal fun H r hH h0 hr => by
    have h := hX.2 (fun t => K t + r • H, L) (fun t => ⟨by
      have := hr t
      rwa [show K t - L t + r • H = K t + r • H - L t by abel] at this, hL t⟩)
    simp only [hF K (r • H)] at h
    have e1 : (fun t => K t + r • H - L t) = fun t => K t - L t + r • H := by funext t; abel
    rw [e1] at h
    linarith
  refine ⟨h12.1, h12.2, fun v => ?_⟩
  have hv : (vecMulVec v v).PosSemidef := by
    have := posSemidef_vecMulVec_self_star v
    simpa using this
  have hvs : (vecMulVec v v : Matrix n n ℝ).IsSymm := hv.isSymm'
  have h := loglik_direction (H := fun _ => -vecMulVec v v) (c := tau * (k * (v ⬝ᵥ v))) hS hw hR
    (fun _ => by rw [IsSymm, transpose_neg, hvs.eq]) fun r h0 _ hr => by
      have h := hX.2 (K, fun t => L t + r • vecMulVec v v) (fun t => ⟨by
        have := hr t
        rwa [show K t - L t + r • -vecMulVec v v = K t - (L t + r • vecMulVec v v) by
          rw [smul_neg]; abel] at this, (hL t).add (hv.smul h0.le)⟩)
      simp only [hG L (r • vecMulVec v v)] at h
      have e1 : (fun t => K t - (L t + r • vecMulVec v v)) = fun t => K t - L t + r • -vecMulVec v v := by
        funext t; rw [smul_neg]; abel
      have e2 : ∑ t, trace (L t + r • vecMulVec v v) = ∑ t, trace (L t) + r * (k * (v ⬝ᵥ v)) := by
        simp only [trace_add, trace_smul, trace_vecMulVec, Finset.sum_add_distrib, Finset.sum_const,
          Finset.card_univ, Fintype.card_fin, nsmul_eq_mul, smul_eq_mul]
        ring
      rw [e1, e2] at h
      linarith
  have e3 : ∀ A : Matrix n n ℝ, frobInner A (-vecMulVec v v) = -(v ⬝ᵥ A *ᵥ v) := by
    intro A
    rw [frobInner_neg_right, neg_inj]
    unfold frobInner dotProduct mulVec
    refine Finset.sum_congr rfl fun i _ => ?_
    unfold dotProduct
    rw [Finset.mul_sum]
    refine Finset.sum_congr rfl fun j _ => ?_
    rw [vecMulVec_apply]
    ring
  have e4 : ∑ t, w t * frobInner (S t - (K t - L t)⁻¹) (-vecMulVec v v)
      = ∑ t, w t * (v ⬝ᵥ (K t - L t)⁻¹ *ᵥ v) - ∑ t, w t * (v ⬝ᵥ S t *ᵥ v) := by
    rw [← Finset.sum_sub_distrib]
    refine Finset.sum_congr rfl fun t _ => ?_
    rw [e3, sub_mulVec, dotProduct_sub]
    ring
  rw [e4] at h
  linarith

/-- C193 (latent estimators, one network), and in addition: the low rank part sits exactly in the directions where
the fitted variance falls short by `tau`. -/
theorem C193_latent {S K L : Matrix n n ℝ} (hS : S.IsSymm) {e : ℝ} (he : 0 ≤ e) {alpha tau : ℝ} (hal : 0 ≤ alpha)
    (hX : IsMin (LatentFeasible n) (latentObjective S alpha tau (diagPen e)) (K, L)) :
    (∀ i, (K - L)⁻¹ i i = S i i + e * alpha) ∧
    (∀ i j, i ≠ j → |(K - L)⁻¹ i j - S i j| ≤ alpha) ∧
    (∀ v : n → ℝ, v ⬝ᵥ S *ᵥ v ≤ v ⬝ᵥ (K - L)⁻¹ *ᵥ v + tau * (v ⬝ᵥ v)) ∧
    trace (S * L) = trace ((K - L)⁻¹ * L) + tau * trace L := by
  have hX' : IsMin (LatentSeqFeasible 1 n) (fun p => negLogLik (fun _ => S) (fun _ => 1) (fun t => p.1 t - p.2 t)
      + alpha * ∑ t, diagPen e (p.1 t) + tau * ∑ t, trace (p.2 t) + (fun _ => (0 : ℝ)) p.1 + (fun _ => (0 : ℝ)) p.2)
      (fun _ => K, fun _ => L) := by
    refine ⟨fun _ => hX.1, fun p hp => ?_⟩
    have h := hX.2 (p.1 0, p.2 0) (hp 0)
    unfold latentObjective at h
    unfold negLogLik
    simp only [Fin.sum_univ_one, one_mul, add_zero]
    exact h
  have h := C193_latent_pooled (k := 1) (S := fun _ => S) (K := fun _ => K) (L := fun _ => L) (w := fun _ => 1)
    (F := fun _ => 0) (G := fun _ => 0) (fun _ => hS) (fun _ => zero_le_one) he hal (fun _ _ => rfl) (fun _ _ => rfl) hX'
  simp only [Fin.sum_univ_one, one_mul, Nat.cast_one] at h
  refine ⟨fun i => by linarith [h.1 i], h.2.1, h.2.2, ?_⟩
  have hR : (K - L).PosDef := hX.1.1
  have hL : L.PosSemidef := hX.1.2
  have hLs := hL.isSymm'
  have key : ∀ s : ℝ, -1 ≤ s → 0 ≤ -s * (trace (S * L) - trace ((K - L)⁻¹ * L)) + tau * (s * trace L) := by
    intro s hs
    have h := loglik_direction (k := 1) (S := fun _ => S) (w := fun _ => 1) (K := fun _ => K - L)
      (H := fun _ => (-s) • L) (c := tau * (s * trace L)) (fun _ => hS) (fun _ => zero_le_one) (fun _ => hR)
      (fun _ => by rw [IsSymm, transpose_smul, hLs.eq]) fun r h0 h1 hr => by
        have hnn : 0 ≤ 1 + r * s := by nlinarith
        have h := hX.2 (K, (1 + r * s) • L) ⟨by
          have := hr 0
          rwa [show K - L + r • (-s) • L = K - (1 + r * s) • L by module] at this, hL.smul hnn⟩
        unfold latentObjective at h
        unfold negLogLik
        simp only [Fin.sum_univ_one, one_mul]
        rw [show K - L + r • (-s) • L = K - (1 + r * s) • L by module]
        simp only [trace_smul, smul_eq_mul] at h
        linarith
    simp only [Fin.sum_univ_one, one_mul] at h
    rw [frobInner_smul_right, frobInner_eq_trace_of_symm (by rw [IsSymm, transpose_sub, hS.eq, hR.inv.isSymm'.eq]),
      sub_mul, trace_sub] at h
    exact h
  have h1 := key 1 (by norm_num)
  have h2 := key (-1) le_rfl
  linarith

/-- C193 (latent estimators), the hypotheses. -/
example : ∃ p, IsMin (LatentFeasible (Fin 2))
    (latentObjective (1 : Matrix (Fin 2) (Fin 2) ℝ) 1 (1 / 2) (diagPen 1)) p := by
  obtain ⟨p, hp, -⟩ := C157_single (S := (1 : Matrix (Fin 2) (Fin 2) ℝ)) PosSemidef.one (alpha := 1) (tau := 1 / 2)
    one_pos (by norm_num)
  exact ⟨p, by rw [diagPen_one]; exact hp⟩

end Verif.Props
