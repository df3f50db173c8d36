import Verif.Spec.Relabel
import Verif.Spec.Opt
import Verif.Lemmas.Spectral
import Verif.Lemmas.Soft
import Verif.Model.Temporal
import Verif.Model.Infimal

/-! How the building blocks of the solvers react to a relabelling of the variables. -/

namespace Verif.Lemmas

open Matrix Verif.Model Verif.Spec

set_option autoImplicit false
set_option linter.unusedSectionVars false

variable {n : Type*} [Fintype n] [DecidableEq n]

/-! ### Functions of a symmetric matrix do not depend on the eigenbasis -/

/-- The matrix assembled from transformed eigenvalues depends on the matrix only. -/
theorem recompose_basis {A Q Q' : Matrix n n ℝ} {e e' : n → ℝ} (h : IsEigh A Q e) (h' : IsEigh A Q' e')
    (f : ℝ → ℝ) : recompose Q (fun i => f (e i)) = recompose Q' (fun i => f (e' i)) := by
  have hW : diagonal e * (Qᵀ * Q') = (Qᵀ * Q') * diagonal e' := by
    have h1 : Q * diagonal e * Qᵀ = Q' * diagonal e' * Q'ᵀ := h.decomp.symm.trans h'.decomp
    calc diagonal e * (Qᵀ * Q') = (Qᵀ * Q) * diagonal e * (Qᵀ * Q') := by rw [h.orth', Matrix.one_mul]
      _ = Qᵀ * (Q * diagonal e * Qᵀ) * Q' := by simp only [Matrix.mul_assoc]
      _ = Qᵀ * (Q' * diagonal e' * Q'ᵀ) * Q' := by rw [h1]
      _ = Qᵀ * Q' * diagonal e' * (Q'ᵀ * Q') := by simp only [Matrix.mul_assoc]
      _ = (Qᵀ * Q') * diagonal e' := by rw [h'.orth', Matrix.mul_one]
  have hF : diagonal (fun i => f (e i)) * (Qᵀ * Q') = (Qᵀ * Q') * diagonal (fun i => f (e' i)) := by
    ext i j
    have := congrFun (congrFun hW i) j
    rw [diagonal_mul, mul_diagonal] at this ⊢
    by_cases hz : (Qᵀ * Q') i j = 0
    · rw [hz]; ring
    · have : e i = e' j := by
        apply mul_right_cancel₀ hz
        rw [this]; ring
      rw [this]; ring
  rw [recompose_eq, recompose_eq]
  calc Q * diagonal (fun i => f (e i)) * Qᵀ = Q * diagonal (fun i => f (e i)) * Qᵀ * (Q' * Q'ᵀ) := by
        rw [h'.orth, Matrix.mul_one]
    _ = Q * (diagonal (fun i => f (e i)) * (Qᵀ * Q')) * Q'ᵀ := by simp only [Matrix.mul_assoc]
    _ = Q * ((Qᵀ * Q') * diagonal (fun i => f (e' i))) * Q'ᵀ := by rw [hF]
    _ = (Q * Qᵀ) * Q' * diagonal (fun i => f (e' i)) * Q'ᵀ := by simp only [Matrix.mul_assoc]
    _ = Q' * diagonal (fun i => f (e' i)) * Q'ᵀ := by rw [h.orth, Matrix.one_mul]

variable (r : Relabel n)

theorem sign_abs (i : n) : |r.sign i| = 1 := by
  have h := r.sign_sq i
  have h2 : |r.sign i| * |r.sign i| = 1 := by rw [← abs_mul, h, abs_one]
  nlinarith [abs_nonneg (r.sign i)]

theorem sign_cases (i : n) : r.sign i = 1 ∨ r.sign i = -1 := by
  have := sign_abs r i
  rcases abs_choice (r.sign i) with h | h <;> rw [h] at this
  · exact Or.inl this
  · exact Or.inr (by linarith)

@[simp] theorem mat_add (A B : Matrix n n ℝ) : r.mat (A + B) = r.mat A + r.mat B := by
  ext i j; simp only [Relabel.mat, Matrix.add_apply]; ring

@[simp] theorem mat_sub (A B : Matrix n n ℝ) : r.mat (A - B) = r.mat A - r.mat B := by
  ext i j; simp only [Relabel.mat, Matrix.sub_apply]; ring

@[simp] theorem mat_smul (c : ℝ) (A : Matrix n n ℝ) : r.mat (c • A) = c • r.mat A := by
  ext i j; simp only [Relabel.mat, Matrix.smul_apply, smul_eq_mul]; ring

@[simp] theorem mat_zero : r.mat (0 : Matrix n n ℝ) = 0 := by
  ext i j; simp [Relabel.mat]

@[simp] theorem mat_transpose (A : Matrix n n ℝ) : (r.mat A)ᵀ = r.mat Aᵀ := by
  ext i j; simp only [Relabel.mat, Matrix.transpose_apply]; ring

theorem mat_symm {A : Matrix n n ℝ} (h : A.IsSymm) : (r.mat A).IsSymm := by
  unfold Matrix.IsSymm; rw [mat_transpose, h]

@[simp] theorem mat_symmetrize (A : Matrix n n ℝ) : symmetrize (r.mat A) = r.mat (symmetrize A) := by
  simp [symmetrize]

theorem mat_sum {ι : Type*} (s : Finset ι) (f : ι → Matrix n n ℝ) :
    r.mat (∑ x ∈ s, f x) = ∑ x ∈ s, r.mat (f x) := by
  ext i j; simp only [Relabel.mat, Matrix.sum_apply, Finset.mul_sum]

/-- The orthogonal matrix of the relabelling. -/
def perMat : Matrix n n ℝ := fun i j => if r.perm i = j then r.sign i else 0

theorem mat_eq (A : Matrix n n ℝ) : r.mat A = perMat r * A * (perMat r)ᵀ := by
  ext i j
  simp only [Relabel.mat, perMat, Matrix.mul_apply, Matrix.transpose_apply, ite_mul, zero_mul, mul_ite, mul_zero,
    Finset.sum_ite_eq, Finset.mem_univ, if_true]
  ring

theorem perMat_orth : perMat r * (perMat r)ᵀ = 1 := by
  ext i j
  simp only [perMat, Matrix.mul_apply, Matrix.transpose_apply, ite_mul, zero_mul, mul_ite, mul_zero,
    Finset.sum_ite_eq, Finset.mem_univ, if_true, Matrix.one_apply, EmbeddingLike.apply_eq_iff_eq]
  by_cases h : i = j
  · subst h; simp [r.sign_sq]
  · simp [h]

theorem perMat_orth' : (perMat r)ᵀ * perMat r = 1 := by
  rw [mul_eq_one_comm]; exact perMat_orth r

theorem mat_isEigh {A Q : Matrix n n ℝ} {e : n → ℝ} (h : IsEigh A Q e) : IsEigh (r.mat A) (perMat r * Q) e where
  orth := by
    rw [transpose_mul]
    calc perMat r * Q * (Qᵀ * (perMat r)ᵀ) = perMat r * (Q * Qᵀ) * (perMat r)ᵀ := by simp only [Matrix.mul_assoc]
      _ = 1 := by rw [h.orth, Matrix.mul_one, perMat_orth]
  orth' := by
    rw [transpose_mul]
    calc Qᵀ * (perMat r)ᵀ * (perMat r * Q) = Qᵀ * ((perMat r)ᵀ * perMat r) * Q := by simp only [Matrix.mul_assoc]
      _ = 1 := by rw [perMat_orth', Matrix.mul_one, h.orth']
  decomp := by
    rw [mat_eq, transpose_mul]
    conv_lhs => rw [h.decomp]
    simp only [Matrix.mul_assoc]

theorem mat_recompose (Q : Matrix n n ℝ) (xi : n → ℝ) : recompose (perMat r * Q) xi = r.mat (recompose Q xi) := by
  rw [mat_eq, recompose_eq, recompose_eq, transpose_mul]
  simp only [Matrix.mul_assoc]

/-- A function of a symmetric matrix, computed with any two eigensolvers before and after the relabelling. -/
theorem mat_spectral {eigh eigh' : Eigh n} (he : IsEighOracle eigh) (he' : IsEighOracle eigh') (f : ℝ → ℝ)
    {A : Matrix n n ℝ} (hA : A.IsSymm) :
    recompose (eigh' (r.mat A)).1 (fun i => f ((eigh' (r.mat A)).2 i)) =
      r.mat (recompose (eigh A).1 (fun i => f ((eigh A).2 i))) := by
  rw [← mat_recompose]
  exact recompose_basis (he' _ (mat_symm r hA)) (mat_isEigh r (he A hA)) f

theorem mat_proxLogdet {eigh eigh' : Eigh n} (he : IsEighOracle eigh) (he' : IsEighOracle eigh')
    {A : Matrix n n ℝ} (hA : A.IsSymm) (lam : ℝ) :
    proxLogdet (eigh' (r.mat A)).1 (eigh' (r.mat A)).2 lam = r.mat (proxLogdet (eigh A).1 (eigh A).2 lam) :=
  mat_spectral r he he' (xiLogdet lam) hA

theorem mat_proxTrace {eigh eigh' : Eigh n} (he : IsEighOracle eigh) (he' : IsEighOracle eigh')
    {A : Matrix n n ℝ} (hA : A.IsSymm) (lam : ℝ) :
    proxTraceIndicator (eigh' (r.mat A)).1 (eigh' (r.mat A)).2 lam =
      r.mat (proxTraceIndicator (eigh A).1 (eigh A).2 lam) :=
  mat_spectral r he he' (fun x => max (x - lam) 0) hA

/-! ### Entrywise operators -/

theorem softScalar_neg' (a lam : ℝ) : softScalar (-a) lam = -softScalar a lam := by
  unfold softScalar npSign
  rw [abs_neg]
  rcases lt_trichotomy a 0 with h | h | h
  · simp [h, not_lt.mpr h.le]
  · simp [h]
  · simp [h, not_lt.mpr h.le]

theorem softScalar_sign {c : ℝ} (hc : c = 1 ∨ c = -1) (a lam : ℝ) : softScalar (c * a) lam = c * softScalar a lam := by
  rcases hc with h | h <;> rw [h]
  · rw [one_mul, one_mul]
  · rw [neg_one_mul, neg_one_mul, softScalar_neg']

theorem sign_prod (i j : n) : r.sign i * r.sign j = 1 ∨ r.sign i * r.sign j = -1 := by
  rcases sign_cases r i with h | h <;> rcases sign_cases r j with h' | h' <;> rw [h, h'] <;> norm_num

@[simp] theorem mat_soft (A : Matrix n n ℝ) (lam : ℝ) :
    softThresholdingMat (r.mat A) lam = r.mat (softThresholdingMat A lam) := by
  ext i j
  exact softScalar_sign (sign_prod r i j) _ _

@[simp] theorem mat_softOff (A : Matrix n n ℝ) (lam : ℝ) :
    softThresholdingOffDiagonal (r.mat A) lam = r.mat (softThresholdingOffDiagonal A lam) := by
  ext i j
  unfold softThresholdingOffDiagonal fillDiagonal getDiagonal
  simp only [Relabel.mat, EmbeddingLike.apply_eq_iff_eq]
  by_cases h : i = j
  · subst h; simp
  · simp only [h, if_false]
    exact softScalar_sign (sign_prod r i j) _ _

@[simp] theorem mat_laplacian (A : Matrix n n ℝ) (lam : ℝ) :
    proxLaplacianMat (r.mat A) lam = r.mat (proxLaplacianMat A lam) := by
  ext i j
  simp only [proxLaplacianMat, Relabel.mat]; ring

/-! ### Norms and objective values -/

/-- A sum over all entries of something that does not depend on the sign. -/
theorem mat_sum_entries (f : ℝ → ℝ) (hf : ∀ x, f (-x) = f x) (A : Matrix n n ℝ) :
    ∑ i, ∑ j, f (r.mat A i j) = ∑ i, ∑ j, f (A i j) := by
  have h : ∀ i j, f (r.mat A i j) = f (A (r.perm i) (r.perm j)) := by
    intro i j
    unfold Relabel.mat
    rcases sign_prod r i j with h | h <;> rw [h]
    · rw [one_mul]
    · rw [neg_one_mul, hf]
  simp only [h]
  rw [Equiv.sum_comp r.perm (fun i => ∑ j, f (A i (r.perm j)))]
  exact Finset.sum_congr rfl fun i _ => Equiv.sum_comp r.perm (fun j => f (A i j))

@[simp] theorem mat_sumSq (A : Matrix n n ℝ) : ∑ i, ∑ j, r.mat A i j ^ 2 = ∑ i, ∑ j, A i j ^ 2 :=
  mat_sum_entries r (fun x => x ^ 2) (by intro x; ring) A

@[simp] theorem mat_froNorm (A : Matrix n n ℝ) : froNorm (r.mat A) = froNorm A := by
  unfold froNorm; rw [mat_sumSq]

theorem mat_diag (A : Matrix n n ℝ) (i : n) : r.mat A i i = A (r.perm i) (r.perm i) := by
  simp only [Relabel.mat, r.sign_sq, one_mul]

@[simp] theorem mat_l1Od (A : Matrix n n ℝ) : l1OdNorm (r.mat A) = l1OdNorm A := by
  unfold l1OdNorm matrixL1Norm
  rw [mat_sum_entries r (fun x => |x|) abs_neg]
  simp only [mat_diag]
  rw [Equiv.sum_comp r.perm (fun i => |A i i|)]

@[simp] theorem mat_l1 (A : Matrix n n ℝ) : l1Norm (r.mat A) = l1Norm A := by
  unfold l1Norm
  rw [mat_sum_entries r (fun x => |x|) abs_neg]

@[simp] theorem mat_det (A : Matrix n n ℝ) : (r.mat A).det = A.det := by
  have h : (perMat r).det * (perMat r).det = 1 := by
    have := congrArg Matrix.det (perMat_orth r)
    rwa [det_mul, det_transpose, det_one] at this
  rw [mat_eq, det_mul, det_mul, det_transpose]
  calc (perMat r).det * A.det * (perMat r).det = (perMat r).det * (perMat r).det * A.det := by ring
    _ = A.det := by rw [h, one_mul]

@[simp] theorem mat_inner (A B : Matrix n n ℝ) :
    ∑ i, ∑ j, r.mat A i j * r.mat B i j = ∑ i, ∑ j, A i j * B i j := by
  have h : ∀ i j, r.mat A i j * r.mat B i j = A (r.perm i) (r.perm j) * B (r.perm i) (r.perm j) := by
    intro i j
    simp only [Relabel.mat]
    calc r.sign i * r.sign j * A (r.perm i) (r.perm j) * (r.sign i * r.sign j * B (r.perm i) (r.perm j))
        = (r.sign i * r.sign i) * (r.sign j * r.sign j) * (A (r.perm i) (r.perm j) * B (r.perm i) (r.perm j)) := by
          ring
      _ = _ := by rw [r.sign_sq, r.sign_sq]; ring
  simp only [h]
  rw [Equiv.sum_comp r.perm (fun i => ∑ j, A i (r.perm j) * B i (r.perm j))]
  exact Finset.sum_congr rfl fun i _ => Equiv.sum_comp r.perm (fun j => A i j * B i j)

@[simp] theorem mat_logdetXF (A : Matrix n n ℝ) : logdetXF (r.mat A) = logdetXF A := by
  unfold logdetXF; rw [mat_det]

theorem symmetrize_symm (A : Matrix n n ℝ) : (symmetrize A).IsSymm := by
  unfold symmetrize Matrix.IsSymm
  rw [transpose_smul, transpose_add, transpose_transpose, add_comm]

/-! ### Collections of matrices -/

/-- The relabelling at every time point, or for every pair of time points. -/
def fam {ι : Type*} (X : ι → Matrix n n ℝ) : ι → Matrix n n ℝ := fun t => r.mat (X t)

@[simp] theorem fam_apply {ι : Type*} (X : ι → Matrix n n ℝ) (t : ι) : fam r X t = r.mat (X t) := rfl

@[simp] theorem fam_sub {ι : Type*} (X Y : ι → Matrix n n ℝ) : fam r X - fam r Y = fam r (X - Y) := by
  funext t; simp [fam]

@[simp] theorem fam_add {ι : Type*} (X Y : ι → Matrix n n ℝ) : fam r X + fam r Y = fam r (X + Y) := by
  funext t; simp [fam]

@[simp] theorem fam_zero {ι : Type*} : fam r (0 : ι → Matrix n n ℝ) = 0 := by
  funext t; simp [fam]

@[simp] theorem fam_batchSq {k : ℕ} (X : Batch k n) : batchSq (fam r X) = batchSq X := by
  unfold batchSq
  exact Finset.sum_congr rfl fun t _ => mat_sumSq r (X t)

@[simp] theorem fam_pairSq {E : Type*} [Fintype E] (X : E → Matrix n n ℝ) : pairSq (fam r X) = pairSq X := by
  unfold pairSq
  exact Finset.sum_congr rfl fun t _ => mat_sumSq r (X t)

theorem fam_scatter {k : ℕ} {E : Type*} [Fintype E] (f : E → Fin k) (X : E → Matrix n n ℝ) (t : Fin k) :
    scatter f (fam r X) t = r.mat (scatter f X t) := by
  unfold scatter
  rw [mat_sum]
  refine Finset.sum_congr rfl fun e _ => ?_
  split
  · rfl
  · exact (mat_zero r).symm

theorem fam_tglLoss {k : ℕ} (S K : Batch k n) (nS : Fin k → ℝ) :
    tglLoss (fam r S) (fam r K) nS = tglLoss S K nS := by
  unfold tglLoss
  simp only [fam_apply, mat_logdetXF, mat_inner]

end Verif.Lemmas
