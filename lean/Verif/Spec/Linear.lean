import Verif.Spec.Opt
import Mathlib.Data.Matrix.Mul

/-! Specifications for the linear models. -/

namespace Verif.Spec

open Matrix

set_option autoImplicit false

/-- The lasso objective `½‖Ax - b‖² + lam ‖x‖₁`. -/
noncomputable def lassoObj {m p : ℕ} (A : Matrix (Fin m) (Fin p) ℝ) (b : Fin m → ℝ) (lam : ℝ)
    (x : Fin p → ℝ) : ℝ :=
  1 / 2 * (∑ i, ((A *ᵥ x) i - b i) ^ 2) + lam * absSum x

/-- The groups cover every feature below `n` exactly once and mention nothing else. -/
def IsPartition (groups : List (List ℕ)) (n : ℕ) : Prop :=
  ∀ i, groups.flatten.count i = if i < n then 1 else 0

/-- The group penalty `∑_g ‖x_g‖₂`. -/
noncomputable def groupNormSum {p : ℕ} (groups : List (List (Fin p))) (x : Fin p → ℝ) : ℝ :=
  (groups.map fun g => Real.sqrt (g.map fun i => x i ^ 2).sum).sum

/-- Number of groups that contain feature `i`. -/
def groupCount (groups : List (List ℕ)) (i : ℕ) : ℕ :=
  ((List.range groups.length).filter fun g => i ∈ groups.getD g []).length

/-- Sum over the groups containing feature `i` of the group's copy of it. -/
noncomputable def copySum (groups : List (List ℕ)) (x : ℕ → ℕ → ℝ) (i : ℕ) : ℝ :=
  ∑ g ∈ Finset.range groups.length,
    if i ∈ groups.getD g [] then x g ((groups.getD g []).idxOf i) else 0

/-- The objective documented for the overlapping group lasso, `½‖Az - b‖² + lam ∑_g ‖z_g‖₂`. -/
noncomputable def groupLassoObj {m p : ℕ} (A : Matrix (Fin m) (Fin p) ℝ) (b : Fin m → ℝ) (lam : ℝ)
    (groups : List (List (Fin p))) (z : Fin p → ℝ) : ℝ :=
  1 / 2 * (∑ i, ((A *ᵥ z) i - b i) ^ 2) + lam * groupNormSum groups z

/-- The lasso objective with one weight per feature. -/
noncomputable def weightedLassoObj {m p : ℕ} (A : Matrix (Fin m) (Fin p) ℝ) (b : Fin m → ℝ) (lam : ℝ)
    (w : Fin p → ℝ) (z : Fin p → ℝ) : ℝ :=
  1 / 2 * (∑ i, ((A *ᵥ z) i - b i) ^ 2) + lam * ∑ i, w i * |z i|

/-- Sum of the block values over the blocks that contain a feature. -/
def blockSum {ι κ : Type*} [Fintype ι] [DecidableEq κ] (blocks : ι → Finset κ) (x : ι → ℝ) (i : κ) : ℝ :=
  ∑ g, if i ∈ blocks g then x g else 0

/-- The dual objective of the proximal problem: `∑_g r_g² x_g + ∑_i w0_i² / (1 + ∑_{g ∋ i} x_g)`, to be
minimised over `x ≥ 0`. -/
noncomputable def latentDual {ι κ : Type*} [Fintype ι] [Fintype κ] [DecidableEq κ] (blocks : ι → Finset κ)
    (r : ι → ℝ) (w0 : κ → ℝ) (x : ι → ℝ) : ℝ :=
  (∑ g, r g ^ 2 * x g) + ∑ i, w0 i ^ 2 / (1 + blockSum blocks x i)

/-- `w` is the sum of one part per block, and each part vanishes outside its block. -/
def IsLatentSplit {ι κ : Type*} [Fintype ι] (blocks : ι → Finset κ) (w : κ → ℝ) (z : ι → κ → ℝ) : Prop :=
  (∀ i, w i = ∑ g, z g i) ∧ ∀ g, ∀ i ∉ blocks g, z g i = 0

/-- `½‖w - w0‖² + ∑_g r_g ‖z_g‖₂`: distance to `w0` plus the cost of a splitting of `w`. The smallest
value over the splittings is the group lasso with overlap penalty of `w`. -/
noncomputable def latentCost {ι κ : Type*} [Fintype ι] [Fintype κ] (r : ι → ℝ) (w0 w : κ → ℝ)
    (z : ι → κ → ℝ) : ℝ :=
  1 / 2 * (∑ i, (w i - w0 i) ^ 2) + ∑ g, r g * Real.sqrt (∑ i, z g i ^ 2)

/-- `w` is the proximal point of `w0` for the group lasso with overlap penalty with radii `r`. -/
def IsLatentProx {ι κ : Type*} [Fintype ι] [Fintype κ] (blocks : ι → Finset κ) (r : ι → ℝ)
    (w0 w : κ → ℝ) : Prop :=
  ∃ z, IsLatentSplit blocks w z ∧
    ∀ w' z', IsLatentSplit blocks w' z' → latentCost r w0 w z ≤ latentCost r w0 w' z'

/-- `1/(2n) ‖X β - Y‖² + μ/2 ‖β‖²`: mean squared error with a ridge term. -/
noncomputable def ridgeRisk {n d : ℕ} (X : Matrix (Fin n) (Fin d) ℝ) (Y : Fin n → ℝ) (mu : ℝ)
    (b : Fin d → ℝ) : ℝ :=
  1 / (2 * n) * (∑ k, ((∑ i, X k i * b i) - Y k) ^ 2) + mu / 2 * ∑ i, b i ^ 2

/-- `β` minimises `F β + ∑_g r_g ‖z_g‖₂` over the vectors and their splittings along the blocks: the group
lasso with overlap. -/
def IsOverlapMin {ι κ : Type*} [Fintype ι] [Fintype κ] (blocks : ι → Finset κ) (r : ι → ℝ)
    (F : (κ → ℝ) → ℝ) (b : κ → ℝ) : Prop :=
  ∃ z, IsLatentSplit blocks b z ∧ ∀ b' z', IsLatentSplit blocks b' z' →
    F b + ∑ g, r g * Real.sqrt (∑ i, z g i ^ 2) ≤ F b' + ∑ g, r g * Real.sqrt (∑ i, z' g i ^ 2)

end Verif.Spec
