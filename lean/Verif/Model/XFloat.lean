import Mathlib.Data.Real.Basic
import Mathlib.Data.Fintype.Basic
import Mathlib.Data.List.FinRange

/-!
`XF`: exact real arithmetic extended by the IEEE special values, used wherever regain's result
depends on division by zero or NaN propagation (numpy's float64 semantics, rounding and signed
zeros left out: a zero denominator is treated as `+0`, which is what `np.linalg.norm` returns).
-/

namespace Verif

/-- A float64 value with exact finite part. -/
inductive XF where
  | fin (r : ℝ)
  | pinf
  | ninf
  | nan

namespace XF

open Classical in
/-- numpy `a / b` (IEEE, errors only produce warnings): `x/0` is ±inf, `0/0` is nan. -/
noncomputable def div : XF → XF → XF
  | fin a, fin b =>
      if b ≠ 0 then fin (a / b) else if a > 0 then pinf else if a < 0 then ninf else nan
  | fin _, pinf => fin 0
  | fin _, ninf => fin 0
  | pinf, fin b => if b ≥ 0 then pinf else ninf
  | ninf, fin b => if b ≥ 0 then ninf else pinf
  | _, _ => nan

/-- numpy `-a`. -/
noncomputable def neg : XF → XF
  | fin a => fin (-a)
  | pinf => ninf
  | ninf => pinf
  | nan => nan

/-- numpy `a + b`. -/
noncomputable def add : XF → XF → XF
  | fin a, fin b => fin (a + b)
  | fin _, pinf => pinf
  | pinf, fin _ => pinf
  | pinf, pinf => pinf
  | fin _, ninf => ninf
  | ninf, fin _ => ninf
  | ninf, ninf => ninf
  | _, _ => nan

/-- numpy `a - b`. -/
noncomputable def sub (a b : XF) : XF := add a (neg b)

open Classical in
/-- numpy `a * b`: `0 * inf` is nan. -/
noncomputable def mul : XF → XF → XF
  | fin a, fin b => fin (a * b)
  | fin a, pinf => if a > 0 then pinf else if a < 0 then ninf else nan
  | fin a, ninf => if a > 0 then ninf else if a < 0 then pinf else nan
  | pinf, fin b => if b > 0 then pinf else if b < 0 then ninf else nan
  | ninf, fin b => if b > 0 then ninf else if b < 0 then pinf else nan
  | pinf, pinf => pinf
  | ninf, ninf => pinf
  | pinf, ninf => ninf
  | ninf, pinf => ninf
  | _, _ => nan

/-- `np.maximum(a, b)`: propagates nan. -/
noncomputable def max : XF → XF → XF
  | nan, _ => nan
  | _, nan => nan
  | pinf, _ => pinf
  | _, pinf => pinf
  | ninf, b => b
  | a, ninf => a
  | fin a, fin b => fin (Max.max a b)

/-- `float(True) = 1.0`, `float(False) = 0.0` (a boolean array used in a product). -/
noncomputable def ofBool (b : Bool) : XF := fin (if b then 1 else 0)

/-- The value is a finite number. -/
def isFin : XF → Prop
  | fin _ => True
  | _ => False

/-- `abs(a)`. -/
noncomputable def abs : XF → XF
  | fin a => fin |a|
  | pinf => pinf
  | ninf => pinf
  | nan => nan

/-- `a < b`: false as soon as one side is nan. -/
def lt : XF → XF → Prop
  | fin a, fin b => a < b
  | fin _, pinf => True
  | ninf, fin _ => True
  | ninf, pinf => True
  | _, _ => False

/-- Sum over `Fin n`, left to right starting from `0.0` (numpy's reduction order is
not modelled; exact arithmetic makes the order irrelevant for finite values). -/
noncomputable def sum {n : ℕ} (f : Fin n → XF) : XF :=
  (List.finRange n).foldl (fun acc i => add acc (f i)) (fin 0)

end XF
end Verif
