import Verif.Model.TGL

/-! Model of `regain/scores.py`. -/

namespace Verif.Model

open Matrix

set_option autoImplicit false

variable {n : Type*} [Fintype n] [DecidableEq n]

open Classical in
/-- `np.log(x)` for a real `x`: `-inf` at 0 and nan below (used at regain/scores.py:62,79,103,119). -/
noncomputable def logXF (x : ℝ) : XF :=
  if 0 < x then .fin (Real.log x) else if x = 0 then .ninf else .nan

/-- `log_likelihood` of one pair of matrices, regain/scores.py:36-38 (and `batch_logdet`,
regain/math.py:4-9). -/
noncomputable def logLikelihood (S K : Matrix n n ℝ) : XF :=
  XF.sub (logdetXF K) (.fin (∑ i, ∑ j, S i j * K i j))

/-- `log_likelihood_t`, regain/scores.py:41-43: the sum over the batch. -/
noncomputable def logLikelihoodT {T : ℕ} (S K : Batch T n) : XF :=
  XF.sum fun t => logLikelihood (S t) (K t)

open Classical in
/-- `np.sum(precision != 0)` for one matrix. -/
noncomputable def countNonzero (K : Matrix n n ℝ) : ℕ :=
  (Finset.univ.filter fun e : n × n => K e.1 e.2 ≠ 0).card

/-- `np.sum(precision != 0) - precision.shape[0]`, regain/scores.py:49,60,76. -/
noncomputable def ofNonzero (K : Matrix n n ℝ) : ℝ := (countNonzero K : ℝ) - Fintype.card n

/-- `np.sum(precision != 0) - precision.shape[1] * precision.shape[0]` for a batch,
regain/scores.py:90,102,117. -/
noncomputable def ofNonzeroT {T : ℕ} (K : Batch T n) : ℝ :=
  ((∑ t, countNonzero (K t) : ℕ) : ℝ) - (Fintype.card n * T : ℕ)

/-- `BIC`, regain/scores.py:46-50. -/
noncomputable def bic (S K : Matrix n n ℝ) : XF := XF.sub (logLikelihood S K) (.fin (ofNonzero K))

/-- The penalty `log(n)/n * d + 4 * epsilon * log(v)/n * d` shared by the EBIC variants
(regain/scores.py:61-65, 78-81, 103-105, 118-121); `N` is the argument `n`. -/
noncomputable def ebicPenalty (N epsilon v d : ℝ) : XF :=
  XF.add (XF.mul (XF.div (logXF N) (.fin N)) (.fin d))
    (XF.mul (XF.div (XF.mul (.fin (4 * epsilon)) (logXF v)) (.fin N)) (.fin d))

/-- `EBIC`, regain/scores.py:53-66. -/
noncomputable def ebic (S K : Matrix n n ℝ) (N : ℝ := 100) (epsilon : ℝ := 1 / 2) : XF :=
  XF.sub (logLikelihood S K) (ebicPenalty N epsilon (Fintype.card n) (ofNonzero K))

/-- `EBIC_m`, regain/scores.py:69-82. -/
noncomputable def ebicM (S K : Matrix n n ℝ) (N : ℝ := 100) (epsilon : ℝ := 1 / 2) : XF :=
  let p : ℝ := Fintype.card n
  XF.sub (logLikelihood S K) (ebicPenalty N epsilon (p * (p - 1) / 2) (ofNonzero K))

/-- `BIC_t`, regain/scores.py:85-91. -/
noncomputable def bicT {T : ℕ} (S K : Batch T n) : XF :=
  XF.sub (logLikelihoodT S K) (.fin (ofNonzeroT K))

/-- `EBIC_t`, regain/scores.py:94-106. -/
noncomputable def ebicT {T : ℕ} (S K : Batch T n) (N : ℝ := 100) (epsilon : ℝ := 1 / 2) : XF :=
  XF.sub (logLikelihoodT S K) (ebicPenalty N epsilon ((Fintype.card n * T : ℕ) : ℝ) (ofNonzeroT K))

/-- `EBIC_m_t`, regain/scores.py:109-122. -/
noncomputable def ebicMT {T : ℕ} (S K : Batch T n) (N : ℝ := 100) (epsilon : ℝ := 1 / 2) : XF :=
  let v : ℝ := (Fintype.card n * T : ℕ)
  XF.sub (logLikelihoodT S K) (ebicPenalty N epsilon (v * (v - 1) / 2) (ofNonzeroT K))

end Verif.Model
