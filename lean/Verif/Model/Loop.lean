import Mathlib.Data.List.Basic

/-!
The Python statement `for iteration_ in range(max_iter): … break … else: warnings.warn(…)` used by
every iterative solver of regain.
-/

namespace Verif.Model

/-- What is left after the loop: the local state, the list `checks`, whether `break` ran (so the
`else` clause with the warning did not), and the loop variable (`none` when it was never bound). -/
structure LoopResult (σ κ : Type*) where
  state : σ
  checks : List κ
  broke : Bool
  lastIter : Option ℕ

/-- `for iteration_ in range(it, it + fuel)` with `break`, e.g. regain/covariance/
graphical_lasso_.py:154-196. The body maps the iteration number and the state to the new state, the
appended check, and whether it breaks. -/
def forElse {σ κ : Type*} (body : ℕ → σ → σ × κ × Bool) :
    (fuel it : ℕ) → σ → List κ → Option ℕ → LoopResult σ κ
  | 0, _, s, cs, last => ⟨s, cs, false, last⟩
  | fuel + 1, it, s, cs, _ =>
      let r := body it s
      if r.2.2 then ⟨r.1, cs ++ [r.2.1], true, some it⟩
      else forElse body fuel (it + 1) r.1 (cs ++ [r.2.1]) (some it)

/-- `for iteration_ in range(max_iter)` from scratch. -/
def runLoop {σ κ : Type*} (body : ℕ → σ → σ × κ × Bool) (maxIter : ℕ) (s : σ) : LoopResult σ κ :=
  forElse body maxIter 0 s [] none

end Verif.Model
