import Verif.Model.GroupFit
import Mathlib.Data.Finset.Sort
import Mathlib.Data.List.MinMax

/-! Model of `GroupLassoOverlapClassifier`, regain/linear_model/group_lasso_overlap_.py:469-493, with sklearn's
`LabelBinarizer` and `LinearClassifierMixin.predict` (labels of one column, `fit_intercept=True`). -/

namespace Verif.Model

open Matrix

set_option autoImplicit false

variable {n d : ℕ} {α : Type} [LinearOrder α]

/-- `classes_`, regain/linear_model/group_lasso_overlap_.py:473-474, 491-493: the labels in ascending order. -/
def labelClasses (y : Fin n → α) : List α := (Finset.univ.image y).sort

/-- The column of a class in the binarized labels, regain/linear_model/group_lasso_overlap_.py:473-474
(`pos_label=1, neg_label=-1`). -/
def labelColumn (y : Fin n → α) (c : α) : Matrix (Fin n) (Fin 1) ℝ := Matrix.of fun i _ => if y i = c then 1 else -1

/-- The column of `-1` that the binarizer returns for a single class, regain/linear_model/group_lasso_overlap_.py:474. -/
def negativeColumn : Matrix (Fin n) (Fin 1) ℝ := Matrix.of fun _ _ => -1

/-- The decision value of a column of labels at a row, regain/linear_model/group_lasso_overlap_.py:480 (columns are
fitted separately). -/
noncomputable def columnScore (solver : Matrix (Fin n) (Fin d) ℝ → (Fin n → ℝ) → (Fin d → ℝ))
    (X : Matrix (Fin n) (Fin d) ℝ) (Y : Matrix (Fin n) (Fin 1) ℝ) (x : Fin d → ℝ) : ℝ := groupPredict true solver X Y x 0

/-- `GroupLassoOverlapClassifier.fit(X, y).predict([x])`, regain/linear_model/group_lasso_overlap_.py:469-493. With one
or two classes there is one column, that of the second class, and the label is `classes_[score > 0]`; otherwise the
first class of largest score. No samples are refused by `check_X_y`. -/
noncomputable def classifierPredict (solver : Matrix (Fin n) (Fin d) ℝ → (Fin n → ℝ) → (Fin d → ℝ))
    (X : Matrix (Fin n) (Fin d) ℝ) (y : Fin n → α) (x : Fin d → ℝ) : Except PyErr α :=
  match labelClasses y with
  | [] => .error .value
  | [c] => if columnScore solver X negativeColumn x > 0 then .error .index else .ok c
  | [c₀, c₁] => if columnScore solver X (labelColumn y c₁) x > 0 then .ok c₁ else .ok c₀
  | cs => match interceptShape cs.length d with
    | .error e => .error e
    | .ok _ => match cs.argmax fun c => columnScore solver X (labelColumn y c) x with
      | none => .error .value
      | some c => .ok c

end Verif.Model
