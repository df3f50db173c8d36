import Verif.Model.FB
import Mathlib.Analysis.SpecialFunctions.Pow.Real

/-! Model of the curve computations of `regain/plotting/plotly.py`. -/

namespace Verif.Model

set_option autoImplicit false

variable {E : Type*} [AddCommGroup E] [Module ℝ E]

/-- One round of `_deCasteljau` (regain/plotting/plotly.py:61): the first `N - r` rows are replaced; the right
hand side is computed from the old array before the assignment. -/
def casteljauRound (N : ℕ) (t : ℝ) (a : ℕ → E) (r : ℕ) (i : ℕ) : E :=
  if i < N - r then (1 - t) • a i + t • a (i + 1) else a i

/-- The rounds `r = 1, ..., k`. -/
def casteljauRounds (N : ℕ) (t : ℝ) (b : ℕ → E) : ℕ → ℕ → E
  | 0 => b
  | r + 1 => casteljauRound N t (casteljauRounds N t b r) (r + 1)

/-- `_deCasteljau(b, t)` (regain/plotting/plotly.py:55-62) for a list of `N` control points; positions beyond
the list are never read. -/
def deCasteljau (N : ℕ) (b : ℕ → E) (t : ℝ) : Except PyErr E :=
  if N < 2 then .error .value else .ok (casteljauRounds N t b (N - 1) 0)

/-- `np.linspace(0, 1, nr)[k]` for `nr ≥ 2`. -/
noncomputable def linspace01 (nr k : ℕ) : ℝ := (k : ℝ) / ((nr : ℝ) - 1)

/-- `_BezierCv(b, nr)[k]` (regain/plotting/plotly.py:65-67). -/
noncomputable def bezierCv (N : ℕ) (b : ℕ → E) (nr k : ℕ) : Except PyErr E :=
  deCasteljau N b (linspace01 nr k)

/-- The loop of `_get_idx_interv` (regain/plotting/plotly.py:43-47) from position `k`; `fuel` counts the
remaining positions `len(D) - 1 - k`. -/
noncomputable def idxLoop (D : ℕ → ℝ) (d : ℝ) : ℕ → ℕ → ℕ
  | 0, k => k
  | fuel + 1, k => open Classical in if d > D k then idxLoop D d fuel (k + 1) else k

/-- `_get_idx_interv(d, D)` with `len(D) = len`. -/
noncomputable def idxInterv (d : ℝ) (D : ℕ → ℝ) (len : ℕ) : ℤ := (idxLoop D d (len - 1) 0 : ℤ) - 1

/-- `dist(A, B)` (regain/plotting/plotly.py:50-52) in the plane. -/
noncomputable def planeDist (A B : Fin 2 → ℝ) : ℝ := Real.sqrt ((A 0 - B 0) ^ 2 + (A 1 - B 1) ^ 2)

/-- `Dist` of `lines_chord` (regain/plotting/plotly.py:77). -/
noncomputable def chordDist : ℕ → ℝ
  | 0 => 0
  | 1 => planeDist ![1, 0] ![Real.sqrt 2 / 2, Real.sqrt 2 / 2]
  | 2 => Real.sqrt 2
  | 3 => planeDist ![1, 0] ![-(Real.sqrt 2) / 2, Real.sqrt 2 / 2]
  | _ => 2

/-- `params[K]` of `lines_chord` (regain/plotting/plotly.py:78 and 85) with Python's negative index. -/
noncomputable def chordParam (K : ℤ) : ℝ :=
  if K = 0 then 12 / 10 else if K = 1 then 15 / 10 else if K = 2 then 18 / 10 else 21 / 10

/-- The control points `[A, A / params[K], B / params[K], B]` of an edge
(regain/plotting/plotly.py:81-85). -/
noncomputable def chordControl (A B : Fin 2 → ℝ) : ℕ → Fin 2 → ℝ
  | 0 => A
  | 1 => (1 / chordParam (idxInterv (planeDist A B) chordDist 5)) • A
  | 2 => (1 / chordParam (idxInterv (planeDist A B) chordDist 5)) • B
  | _ => B

/-- The points of the curve drawn for an edge, `_BezierCv(b, nr=5)` (regain/plotting/plotly.py:87). -/
noncomputable def chordPoint (A B : Fin 2 → ℝ) (k : ℕ) : Except PyErr (Fin 2 → ℝ) :=
  bezierCv 4 (chordControl A B) 5 k

end Verif.Model
