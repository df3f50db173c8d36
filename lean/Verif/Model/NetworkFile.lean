import Verif.Model.UtilsMore
import Verif.Model.FB

/-! Model of `write_network`, regain/utils.py:188-190, and of reading its file back. -/

namespace Verif.Model

set_option autoImplicit false

/-- A line of the file: the two labels, missing when the field is empty, and the weight (regain/utils.py:229). -/
structure FileRow (p : ℕ) where
  src : Option (Fin p)
  dst : Option (Fin p)
  w : ℝ

/-- `write_network(dataframe, filename)`, regain/utils.py:188-190, for a frame without missing values whose rows and
columns have the same labels `G1, G2, ...`: one line per entry, row by row. `header` says whether `Series.to_csv` of
this pandas release writes a header (0.24 and later), here `,,0`: two empty fields and the name of the values. -/
def writeNetwork {p : ℕ} (header : Bool) (M : Matrix (Fin p) (Fin p) ℝ) : List (FileRow p) :=
  (if header then [⟨none, none, 0⟩] else []) ++
    (List.finRange p).flatMap fun i => (List.finRange p).map fun j => ⟨some i, some j, M i j⟩

/-- `pd.read_csv(..., header=None)` and `sorted(nn[0].unique(), key=lambda x: int(x[1:]))`, regain/utils.py:229-231: a
missing label is the number nan, and `nan[1:]` is a TypeError; a missing second label fails in the loop, which this
model does not reach. -/
def parseNetwork {p : ℕ} : List (FileRow p) → Except PyErr (List (NetRow p))
  | [] => .ok []
  | r :: rs => match r.src, r.dst with
    | some s, some t => match parseNetwork rs with
      | .ok l => .ok (⟨s, t, r.w⟩ :: l)
      | .error e => .error e
    | _, _ => .error .type

end Verif.Model
