import Verif.Model.Wishart
import Verif.Model.Similarity
import Mathlib.Data.List.MinMax

/-! Model of the chain of `WishartProcess` and of its fitted attributes, regain/bayesian/wishart_process_.py:83-163, 305 and
332-355. -/

namespace Verif.Model

open Matrix

set_option autoImplicit false

variable {T p : ℕ}

/-- `self.nu_ = 1`, regain/bayesian/wishart_process_.py:305: the number of replicates the covariances are built from. -/
abbrev wpNu : ℕ := 1

/-- `self.covariance_ = GWP_construct(self.u_map, self.Lmap).T`, regain/bayesian/wishart_process_.py:351-354, at each
time; `u` is the selected state (`nu x p` at each time) and `L` the selected factor. How they are selected is left
open. -/
noncomputable def wpCovariance (u : Fin T → Matrix (Fin wpNu) (Fin p) ℝ) (L : Matrix (Fin p) (Fin p) ℝ) :
    Fin T → Matrix (Fin p) (Fin p) ℝ :=
  fun t => (gwpConstruct (u t) L)ᵀ

/-- `self.precision_`, regain/bayesian/wishart_process_.py:355; `pinvh` is scipy's pseudo-inverse of a symmetric
matrix. -/
noncomputable def wpPrecision (pinvh : Matrix (Fin p) (Fin p) ℝ → Matrix (Fin p) (Fin p) ℝ)
    (u : Fin T → Matrix (Fin wpNu) (Fin p) ℝ) (L : Matrix (Fin p) (Fin p) ℝ) : Fin T → Matrix (Fin p) (Fin p) ℝ :=
  fun t => pinvh (wpCovariance u L t)

/-! ### The chain and the selected state -/

section Chain

variable {α β : Type*}

/-- `current_state`, regain/bayesian/wishart_process_.py:95: state of the process, factor, recorded likelihood. -/
structure WPChain (α β : Type*) where
  /-- State `xx` of the process. -/
  u : α
  /-- Factor `L`. -/
  L : β
  /-- Recorded `log_likelihood`. -/
  ll : ℝ

/-- What one iteration draws: the point found by the slice sampler (`none` if it keeps the state), the new draw of the
process when a new width of the kernel is accepted, and the new factor when factors are learned. All are arbitrary. -/
structure WPDraw (α β : Type*) where
  /-- Point on the slice. -/
  slice : Option α
  /-- New draw of the process. -/
  restart : Option α
  /-- New factor. -/
  ell : Option β

/-- One iteration, regain/bayesian/wishart_process_.py:109-153 with regain/bayesian/sampling.py:146-155; `lik u L` is
`likelihood(GWP_construct(u, L))`. -/
def wpIter (lik : α → β → ℝ) (st : WPChain α β) (d : WPDraw α β) : WPChain α β :=
  let s1 := match d.slice with
    | some u => ⟨u, st.L, lik u st.L⟩
    | none => st
  let s2 := match d.restart with
    | some u => ⟨u, s1.L, lik u s1.L⟩
    | none => s1
  match d.ell with
    | some L => ⟨s2.u, L, lik s2.u L⟩
    | none => s2

/-- The states after each iteration, regain/bayesian/wishart_process_.py:108-159. -/
def wpStates (lik : α → β → ℝ) : WPChain α β → List (WPDraw α β) → List (WPChain α β)
  | _, [] => []
  | st, d :: ds => wpIter lik st d :: wpStates lik (wpIter lik st d) ds

open Classical in
/-- The selected state of the process and factor, regain/bayesian/wishart_process_.py:332-349: the first of the largest
recorded likelihoods after `burn_in` iterations (taken to be non-negative). The entries of the history of factors are
all the same array, which holds the factor of the last iteration. `np.argmax` of an empty list raises `ValueError`. -/
noncomputable def wpEstimate (learnEll : Bool) (burnIn : ℕ) (L0 : β) (states : List (WPChain α β)) : Except PyErr (α × β) :=
  match (states.drop burnIn).argmax WPChain.ll with
  | none => .error .value
  | some s => .ok (s.u, if learnEll then (states.getLast?.map WPChain.L).getD L0 else L0)

end Chain

end Verif.Model
