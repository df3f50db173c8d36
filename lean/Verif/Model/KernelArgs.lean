import Verif.Model.FB
import Verif.Model.Metrics

/-! How the kernel estimators turn their constructor arguments into arguments of the solver:
`KernelTimeGraphicalLasso._fit`, `SimilarityTimeGraphicalLasso._fit`,
`KernelLatentTimeGraphicalLasso._fit`, `SimilarityLatentTimeGraphicalLasso._fit`. -/

namespace Verif.Model

set_option autoImplicit false

/-- A two-dimensional array. -/
structure Arr2 where
  rows : ℕ
  cols : ℕ
  val : Fin rows → Fin cols → ℝ

/-- `np.identity(k)`. -/
def Arr2.identity (k : ℕ) : Arr2 := ⟨k, k, fun i j => if i = j then 1 else 0⟩

/-- The value of the argument `kernel`: `None`, an array, or a kernel class. A kernel class is called
with the keyword `length_scale` and, if that raises TypeError, with `constant_value`; the value of
the two calls on the times is given, `none` where the constructor raises TypeError. -/
inductive KernelArg where
  | none
  | array (a : Arr2)
  | callable (lengthScale constantValue : ℝ → Option Arr2)

open Classical in
/-- `bool(a)` of an array: the truth value of its only entry, `ValueError` when there are several,
`False` (with a deprecation warning) when there is none. -/
noncomputable def Arr2.truth (a : Arr2) : Except PyErr Bool :=
  if a.rows * a.cols = 1 then .ok (decide (∃ i j, a.val i j ≠ 0))
  else if a.rows * a.cols = 0 then .ok false
  else .error .value

/-- `kernel = self.kernel or np.identity(self.classes_.size)` followed by the shape test,
regain/covariance/kernel_time_graphical_lasso_.py:546-554, regain/covariance/
kernel_latent_time_graphical_lasso_.py:535-543 and 555-563. -/
noncomputable def kernelOr (nClasses : ℕ) (k : Option Arr2) : Except PyErr Arr2 :=
  let check (a : Arr2) : Except PyErr Arr2 := if a.rows ≠ nClasses then .error .value else .ok a
  match k with
  | .none => check (Arr2.identity nClasses)
  | .some a =>
      match a.truth with
      | .error e => .error e
      | .ok true => check a
      | .ok false => check (Arr2.identity nClasses)

/-- The call of a kernel class, regain/covariance/kernel_time_graphical_lasso_.py:535-544 and
regain/covariance/kernel_latent_time_graphical_lasso_.py:523-533, 544-554. -/
def kernelCall (ls cv : ℝ → Option Arr2) (param : ℝ) : Except PyErr Arr2 :=
  match ls param with
  | some a => .ok a
  | none =>
      match cv param with
      | some a => .ok a
      | none => .error .type

/-- The kernel matrix handed to the solver by `KernelTimeGraphicalLasso._fit` when `ker_param` is a
number, regain/covariance/kernel_time_graphical_lasso_.py:533-554; also the two kernels of
`KernelLatentTimeGraphicalLasso._fit`, regain/covariance/kernel_latent_time_graphical_lasso_.py:
523-563. -/
noncomputable def fitKernel (nClasses : ℕ) (param : ℝ) : KernelArg → Except PyErr Arr2
  | .callable ls cv => kernelCall ls cv param
  | .array a => kernelOr nClasses (.some a)
  | .none => kernelOr nClasses .none

/-- The kernel matrix handed to the solver by `SimilarityTimeGraphicalLasso._fit` when `kernel` is
given, regain/covariance/kernel_time_graphical_lasso_.py:782-790 (a kernel class has no `shape`;
that AttributeError is reported as `type`). -/
def fitSimilarityKernel (nClasses : ℕ) : KernelArg → Except PyErr Arr2
  | .array a => if a.rows ≠ nClasses then .error .value else .ok a
  | _ => .error .type

/-- Constructor arguments of `KernelLatentTimeGraphicalLasso` that reach (or fail to reach) the
penalties, regain/covariance/kernel_latent_time_graphical_lasso_.py:467-507. -/
structure KLArgs where
  alpha : ℝ
  tau : ℝ
  kernelPsi : KernelArg
  kernelPhi : KernelArg
  psi : String
  phi : String
  kerPsiParam : ℝ
  kerPhiParam : ℝ

/-- The arguments that determine the penalties in a call of `kernel_latent_time_graphical_lasso`. -/
structure KLCall where
  alpha : ℝ
  tau : ℝ
  kernelPsi : Arr2
  kernelPhi : Arr2
  psi : String
  phi : String

/-- The call made by `KernelLatentTimeGraphicalLasso._fit`, regain/covariance/
kernel_latent_time_graphical_lasso_.py:521-583: `phi` is not passed, so the solver's default
`"laplacian"` (line 85) is used. -/
noncomputable def klFit (nClasses : ℕ) (a : KLArgs) : Except PyErr KLCall :=
  match fitKernel nClasses a.kerPhiParam a.kernelPhi with
  | .error e => .error e
  | .ok kphi =>
      match fitKernel nClasses a.kerPsiParam a.kernelPsi with
      | .error e => .error e
      | .ok kpsi => .ok ⟨a.alpha, a.tau, kpsi, kphi, a.psi, "laplacian"⟩

/-- `kernel_phi` of `SimilarityLatentTimeGraphicalLasso._fit` when `kernel_psi is None`,
regain/covariance/kernel_latent_time_graphical_lasso_.py:738-743: the local variable that holds the
chain kernel with weight `eta`. -/
def etaKernel (k : ℕ) (eta : ℝ) : Arr2 :=
  ⟨k, k, fun i j => if i = j then 1 else if (i : ℕ) + 1 = j ∨ (j : ℕ) + 1 = i then eta else 0⟩

/-- The latent kernel the solver receives from `SimilarityLatentTimeGraphicalLasso._fit` when
`kernel_psi` and `kernel_phi` are `None`, regain/covariance/kernel_latent_time_graphical_lasso_.py:
735-800: the call passes `self.kernel_phi`, i.e. `None`, which the solver replaces by the identity
(lines 141-142); the local variable (`etaKernel`) is not used. -/
def similarityLatentKernelPhi (k : ℕ) (_eta : ℝ) : Arr2 := Arr2.identity k

end Verif.Model
