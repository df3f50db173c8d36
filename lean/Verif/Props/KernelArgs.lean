import Verif.Model.KernelArgs
import Mathlib.Tactic.NormNum
import Mathlib.Tactic.Linarith

/-! Property theorems C58, C59 (arguments of the kernel estimators). -/

namespace Verif.Props

open Verif.Model

set_option autoImplicit false

/-! ### C58 -/

/-- C58 (part that holds): `None` means the identity; a kernel class is evaluated with its parameter;
a 1x1 array with a nonzero entry is used for one time point and refused for any other number of time
points; every array with more than one entry and the wrong number of rows raises ValueError. -/
theorem C58_kernel_partial (k : ℕ) (param : ℝ) :
    fitKernel k param .none = .ok (Arr2.identity k) ∧
    (∀ ls cv a, ls param = some a → fitKernel k param (.callable ls cv) = .ok a) ∧
    (∀ ls cv a, ls param = none → cv param = some a →
      fitKernel k param (.callable ls cv) = .ok a) ∧
    (∀ x : ℝ, x ≠ 0 → fitKernel 1 param (.array ⟨1, 1, fun _ _ => x⟩) =
      .ok ⟨1, 1, fun _ _ => x⟩) ∧
    (∀ x : ℝ, x ≠ 0 → k ≠ 1 → fitKernel k param (.array ⟨1, 1, fun _ _ => x⟩) = .error .value) ∧
    (∀ a : Arr2, 1 < a.rows * a.cols → a.rows ≠ k →
      fitKernel k param (.array a) = .error .value) := by
  refine ⟨?_, fun ls cv a h => ?_, fun ls cv a h h' => ?_, fun x hx => ?_, fun x hx hk => ?_,
    fun a ha _ => ?_⟩
  · simp [fitKernel, kernelOr, Arr2.identity]
  · simp [fitKernel, kernelCall, h]
  · simp [fitKernel, kernelCall, h, h']
  · simp [fitKernel, kernelOr, Arr2.truth, hx]
  · simp [fitKernel, kernelOr, Arr2.truth, hx, Ne.symm hk]
  · have h1 : ¬ a.rows * a.cols = 1 := by omega
    have h0 : ¬ a.rows * a.cols = 0 := by omega
    simp only [fitKernel, kernelOr, Arr2.truth, if_neg h1, if_neg h0]

/-- C58 fails: with two or more time points EVERY array kernel of the correct shape is rejected with
ValueError, and with one time point the kernel `[[0]]` is silently replaced by `[[1]]`. -/
theorem C58_array_false (param : ℝ) :
    (∀ (k : ℕ), 2 ≤ k → ∀ v : Fin k → Fin k → ℝ,
      fitKernel k param (.array ⟨k, k, v⟩) = .error .value) ∧
    fitKernel 1 param (.array ⟨1, 1, fun _ _ => 0⟩) = .ok (Arr2.identity 1) := by
  refine ⟨fun k hk v => ?_, ?_⟩
  · have : 4 ≤ k * k := by nlinarith
    have h1 : ¬ k * k = 1 := by omega
    have h0 : ¬ k * k = 0 := by omega
    simp only [fitKernel, kernelOr, Arr2.truth, if_neg h1, if_neg h0]
  · simp [fitKernel, kernelOr, Arr2.truth, Arr2.identity]

/-- C58: the similarity variant accepts exactly the arrays with one row per time point. -/
theorem C58_similarity (k : ℕ) (a : Arr2) :
    (a.rows = k → fitSimilarityKernel k (.array a) = .ok a) ∧
    (a.rows ≠ k → fitSimilarityKernel k (.array a) = .error .value) := by
  constructor <;> intro h <;> simp [fitSimilarityKernel, h]

/-- Non-vacuity for C58: a 2x2 kernel is rejected by one class and used by the other. -/
example : fitKernel 2 1 (.array ⟨2, 2, fun _ _ => 1⟩) = .error .value ∧
    fitSimilarityKernel 2 (.array ⟨2, 2, fun _ _ => 1⟩) = .ok ⟨2, 2, fun _ _ => 1⟩ :=
  ⟨(C58_array_false 1).1 2 le_rfl _, (C58_similarity 2 _).1 rfl⟩

/-! ### C59 -/

/-- C59 (part that holds): the penalty `psi` and the weights reach the solver, and if the caller asks
for the `'laplacian'` latent penalty, that is what is used. -/
theorem C59_plumbing_partial (k : ℕ) (a : KLArgs) {c : KLCall} (h : klFit k a = .ok c) :
    c.psi = a.psi ∧ c.alpha = a.alpha ∧ c.tau = a.tau ∧
    fitKernel k a.kerPsiParam a.kernelPsi = .ok c.kernelPsi ∧
    fitKernel k a.kerPhiParam a.kernelPhi = .ok c.kernelPhi ∧
    (a.phi = "laplacian" → c.phi = a.phi) := by
  unfold klFit at h
  split at h
  · cases h
  · rename_i kphi h1
    split at h
    · cases h
    · rename_i kpsi h2
      injection h with h
      subst h
      exact ⟨rfl, rfl, rfl, h2, h1, fun h => h.symm⟩

/-- C59 fails: the latent penalty `phi` never reaches the solver: all estimators that differ only in
`phi` make the same call, and it uses `'laplacian'`. -/
theorem C59_phi_false (k : ℕ) (a : KLArgs) (phi : String) :
    klFit k { a with phi := phi } = klFit k a ∧ ∀ c, klFit k a = .ok c → c.phi = "laplacian" := by
  refine ⟨rfl, fun c h => ?_⟩
  unfold klFit at h
  split at h
  · cases h
  · split at h
    · cases h
    · injection h with h
      subst h
      rfl

/-- C59 fails in the similarity variant for `eta` as well: with `kernel_psi = kernel_phi = None` the
latent kernel does not depend on `eta`, and differs from the kernel the parameter describes whenever
there are two time points and `eta ≠ 0`. -/
theorem C59_eta_false (k : ℕ) (eta eta' : ℝ) :
    similarityLatentKernelPhi k eta = similarityLatentKernelPhi k eta' ∧
    (eta ≠ 0 → similarityLatentKernelPhi 2 eta ≠ etaKernel 2 eta) := by
  refine ⟨rfl, fun h he => ?_⟩
  have h1 : (⟨2, 2, fun i j => if i = j then 1 else 0⟩ : Arr2) = etaKernel 2 eta := he
  unfold etaKernel at h1
  injection h1 with _ _ h3
  have := congrFun (congrFun h3 0) 1
  simp at this
  exact h this.symm

/-- Non-vacuity for C59. -/
example : ∃ c, klFit 3 ⟨1, 1, .none, .none, "l1", "l2", 1, 1⟩ = .ok c ∧ c.phi = "laplacian" := by
  refine ⟨⟨1, 1, Arr2.identity 3, Arr2.identity 3, "l1", "laplacian"⟩, ?_, rfl⟩
  simp only [klFit, (C58_kernel_partial 3 1).1]

end Verif.Props
