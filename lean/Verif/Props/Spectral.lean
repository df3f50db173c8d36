import Verif.Lemmas.LogdetProx

/-! Property theorems C06, C07, C09 (spectral proximal maps). -/

namespace Verif.Props

open Verif.Model Verif.Spec Verif.Lemmas Matrix

variable {n : Type*} [Fintype n] [DecidableEq n]

/-! ### C06 -/

/-- C06: `prox_logdet(A, lamda)` is the unique positive definite minimiser of
`⟨A, X⟩ - logdet X + ‖X‖²/(2 lamda)`, for every eigendecomposition the solver may return. -/
theorem C06_prox_logdet {A Q : Matrix n n ℝ} {e : n → ℝ} (h : IsEigh A Q e) {lam : ℝ}
    (hl : 0 < lam) :
    UniqueMin {X : Matrix n n ℝ | X.PosDef}
      (fun X => trace (A * X) - Real.log X.det + 1 / (2 * lam) * frobSq X) (proxLogdet Q e lam) := by
  refine ⟨proxLogdet_posDef h.orth e hl, fun X hX hne => ?_⟩
  have hs := logdet_strong (proxLogdet_posDef h.orth e hl) hX (proxLogdet_stationary h hl)
  have hpos := frobSq_pos_of_ne hne
  have hli : 0 < lam⁻¹ := inv_pos.mpr hl
  have hc : lam⁻¹ / 2 = 1 / (2 * lam) := by field_simp
  rw [hc, frobInner_eq_trace_of_symm h.isSymm, frobInner_eq_trace_of_symm h.isSymm] at hs
  have : 0 < 1 / (2 * lam) * frobSq (X - proxLogdet Q e lam) := by positivity
  simp only
  linarith

/-- C06: symmetric, and solves the stationarity equation `A - X⁻¹ + X/lamda = 0`. -/
theorem C06_prox_logdet_stationary {A Q : Matrix n n ℝ} {e : n → ℝ} (h : IsEigh A Q e) {lam : ℝ}
    (hl : 0 < lam) :
    (proxLogdet Q e lam).IsSymm ∧
      A - (proxLogdet Q e lam)⁻¹ + lam⁻¹ • proxLogdet Q e lam = 0 :=
  ⟨recompose_isSymm _ _, proxLogdet_stationary h hl⟩

/-- C06: the result does not depend on the eigenbasis. -/
theorem C06_prox_logdet_basis_free {A Q Q' : Matrix n n ℝ} {e e' : n → ℝ} (h : IsEigh A Q e)
    (h' : IsEigh A Q' e') {lam : ℝ} (hl : 0 < lam) : proxLogdet Q e lam = proxLogdet Q' e' lam :=
  (C06_prox_logdet h' hl).eq_of_isMin (C06_prox_logdet h hl).isMin

/-- Every symmetric matrix has an eigendecomposition, so the theorems above apply to all of them. -/
theorem C06_hypothesis_always_met {A : Matrix n n ℝ} (hA : A.IsSymm) : ∃ Q e, IsEigh A Q e :=
  exists_isEigh hA

/-- Non-vacuity for C06: indefinite `diag(3/2, -3/2)` with `lamda = 1`; output `diag(1/2, 2)`. -/
example : IsEigh (diagonal ![3 / 2, -3 / 2] : Matrix (Fin 2) (Fin 2) ℝ) 1 ![3 / 2, -3 / 2] ∧
    proxLogdet (1 : Matrix (Fin 2) (Fin 2) ℝ) ![3 / 2, -3 / 2] 1 = diagonal ![1 / 2, 2] := by
  refine ⟨⟨by simp, by simp, by simp⟩, ?_⟩
  have h1 : Real.sqrt ((3 / 2) ^ 2 + 4 / 1) = 5 / 2 := by
    rw [show ((3 / 2 : ℝ) ^ 2 + 4 / 1) = (5 / 2) ^ 2 by norm_num]; exact Real.sqrt_sq (by norm_num)
  have h2 : Real.sqrt ((-3 / 2) ^ 2 + 4 / 1) = 5 / 2 := by
    rw [show ((-3 / 2 : ℝ) ^ 2 + 4 / 1) = (5 / 2) ^ 2 by norm_num]; exact Real.sqrt_sq (by norm_num)
  rw [proxLogdet, recompose_eq]
  simp only [Matrix.one_mul, transpose_one, Matrix.mul_one]
  congr 1
  funext i
  fin_cases i
  · simp only [xiLogdet, Fin.zero_eta, Matrix.cons_val_zero, h1]; norm_num
  · simp only [xiLogdet, Fin.mk_one, Matrix.cons_val_one, Matrix.cons_val_fin_one, h2]; norm_num

/-! ### C07 -/

/-- C07: `prox_trace_indicator(A, lamda)` is the unique PSD minimiser of
`lamda tr X + ½‖X - A‖²`, for every real `lamda`. -/
theorem C07_prox_trace_indicator {A Q : Matrix n n ℝ} {e : n → ℝ} (h : IsEigh A Q e) (lam : ℝ) :
    UniqueMin {X : Matrix n n ℝ | X.PosSemidef} (proxObjMat trace lam A)
      (proxTraceIndicator Q e lam) := by
  set P := proxTraceIndicator Q e lam with hP
  have hPpsd : P.PosSemidef := recompose_posSemidef Q fun i => le_max_right _ _
  refine ⟨hPpsd, fun X hX hne => ?_⟩
  -- N = P - (A - lam I) is PSD and orthogonal to P
  set N := recompose Q (fun i => max (e i - lam) 0 - (e i - lam)) with hN
  have hNpsd : N.PosSemidef :=
    recompose_posSemidef Q fun i => sub_nonneg.mpr (le_max_left _ _)
  have hNeq : N = P - A + lam • (1 : Matrix n n ℝ) := by
    conv_rhs => rw [h.eq_recompose]
    rw [← recompose_one h.orth, hP, proxTraceIndicator, recompose_smul, recompose_sub, recompose_add,
      hN]
    congr 1; funext i; ring
  have hort : frobInner N P = 0 := by
    rw [frobInner_eq_trace_of_symm hNpsd.isSymm', hN, hP, proxTraceIndicator, recompose_mul h.orth']
    rw [recompose_trace h.orth']
    refine Finset.sum_eq_zero fun i _ => ?_
    rcases le_total (e i - lam) 0 with h0 | h0
    · rw [max_eq_right h0]; ring
    · rw [max_eq_left h0]; ring
  have hNX := frobInner_nonneg_of_posSemidef hNpsd hX
  have hpos := frobSq_pos_of_ne hne
  have htr : ∀ Y : Matrix n n ℝ, trace Y = frobInner 1 Y := by
    intro Y; rw [frobInner_eq_trace]; simp
  unfold proxObjMat
  rw [htr, htr]
  have e1 : X - A = (X - P) + (P - A) := by abel
  rw [e1, frobSq_add (X - P) (P - A)]
  have hPA : P - A = N - lam • (1 : Matrix n n ℝ) := by rw [hNeq]; abel
  have e2 : frobInner (X - P) (P - A) =
      frobInner N X - lam * frobInner 1 X + lam * frobInner 1 P := by
    rw [frobInner_comm, hPA, frobInner_sub_left, frobInner_sub_right, hort, frobInner_smul_left,
      frobInner_sub_right]
    ring
  rw [e2]
  linarith

/-- C07: symmetric PSD result, independent of the eigenbasis. -/
theorem C07_prox_trace_indicator_shape {A Q Q' : Matrix n n ℝ} {e e' : n → ℝ} (h : IsEigh A Q e)
    (h' : IsEigh A Q' e') (lam : ℝ) :
    (proxTraceIndicator Q e lam).IsSymm ∧ (proxTraceIndicator Q e lam).PosSemidef ∧
      proxTraceIndicator Q e lam = proxTraceIndicator Q' e' lam :=
  ⟨recompose_isSymm _ _, (C07_prox_trace_indicator h lam).1,
    (C07_prox_trace_indicator h' lam).eq_of_isMin (C07_prox_trace_indicator h lam).isMin⟩

/-- Non-vacuity for C07: `diag(3, -1)`, `lamda = 1` gives `diag(2, 0)`. -/
example : IsEigh (diagonal ![3, -1] : Matrix (Fin 2) (Fin 2) ℝ) 1 ![3, -1] ∧
    proxTraceIndicator (1 : Matrix (Fin 2) (Fin 2) ℝ) ![3, -1] 1 = diagonal ![2, 0] := by
  refine ⟨⟨by simp, by simp, by simp⟩, ?_⟩
  rw [proxTraceIndicator, recompose_eq]
  simp only [Matrix.one_mul, transpose_one, Matrix.mul_one]
  congr 1
  funext i
  fin_cases i <;> norm_num

/-! ### C09 -/

/-- C09: `prox_logdet(A, lamda) = prox_logdet_ala_ma(lamda * A, lamda)`. -/
theorem C09_ala_ma_relation {A Q Q' : Matrix n n ℝ} {e e' : n → ℝ} (h : IsEigh A Q e) {lam : ℝ}
    (hl : 0 < lam) (h' : IsEigh (lam • A) Q' e') :
    proxLogdet Q e lam = proxLogdetAlaMa Q' e' lam := by
  -- the ala_ma value in any basis of lam • A satisfies the stationarity equation of prox_logdet
  have hpd : (proxLogdetAlaMa Q' e' lam).PosDef := by
    refine recompose_posDef h'.orth fun i => ?_
    have := abs_lt_sqrt_sq_add (e := e' i) (c := 4 * lam) (by positivity)
    have : 0 < -(e' i) + Real.sqrt ((e' i) ^ 2 + 4 * lam) := by linarith [le_abs_self (e' i)]
    linarith
  have hA : IsEigh A Q' (fun i => lam⁻¹ * e' i) := by
    refine ⟨h'.orth, h'.orth', ?_⟩
    rw [← recompose_eq, ← recompose_smul, ← h'.eq_recompose, smul_smul, inv_mul_cancel₀ hl.ne',
      one_smul]
  have heq : proxLogdet Q' (fun i => lam⁻¹ * e' i) lam = proxLogdetAlaMa Q' e' lam := by
    unfold proxLogdet proxLogdetAlaMa xiLogdet
    congr 1; funext i
    have : (lam⁻¹ * e' i) ^ 2 + 4 / lam = ((e' i) ^ 2 + 4 * lam) * (lam⁻¹) ^ 2 := by
      field_simp
    rw [this, Real.sqrt_mul (by positivity), Real.sqrt_sq (by positivity)]
    field_simp
  rw [← heq]
  exact C06_prox_logdet_basis_free h hA hl

/-- C09: `prox_logdet_ala_ma(A, lamda)` is the unique PD minimiser of
`½‖X + A‖² - lamda logdet X`. -/
theorem C09_ala_ma_prox {A Q : Matrix n n ℝ} {e : n → ℝ} (h : IsEigh A Q e) {lam : ℝ}
    (hl : 0 < lam) :
    UniqueMin {X : Matrix n n ℝ | X.PosDef}
      (fun X => 1 / 2 * frobSq (X + A) - lam * Real.log X.det) (proxLogdetAlaMa Q e lam) := by
  have hA : IsEigh (lam⁻¹ • A) Q (fun i => lam⁻¹ * e i) := by
    refine ⟨h.orth, h.orth', ?_⟩
    rw [← recompose_eq, ← recompose_smul, ← h.eq_recompose]
  have hback : lam • lam⁻¹ • A = A := by rw [smul_smul, mul_inv_cancel₀ hl.ne', one_smul]
  have hrel := C09_ala_ma_relation hA hl (hback.symm ▸ h)
  have hmin := C06_prox_logdet hA hl
  rw [hrel] at hmin
  refine ⟨hmin.1, fun X hX hne => ?_⟩
  have hlt := hmin.2 X hX hne
  have hsym : (lam⁻¹ • A).IsSymm := hA.isSymm
  simp only [← frobInner_eq_trace_of_symm hsym, frobInner_smul_left] at hlt
  beta_reduce
  rw [frobSq_add, frobSq_add, frobInner_comm _ A, frobInner_comm _ A]
  have hmul := mul_lt_mul_of_pos_left hlt hl
  have e1 : ∀ a b c : ℝ, lam * (lam⁻¹ * a - b + 1 / (2 * lam) * c) = a - lam * b + 1 / 2 * c := by
    intro a b c; field_simp
  rw [e1, e1] at hmul
  linarith

/-- Non-vacuity for C09. -/
example : IsEigh (diagonal ![3, -3] : Matrix (Fin 2) (Fin 2) ℝ) 1 ![3, -3] :=
  ⟨by simp, by simp, by simp⟩

end Verif.Props
