import Mathlib.Data.Real.Basic
import Mathlib.Analysis.Real.Sqrt
import Mathlib.Algebra.Order.Floor.Ring
import Mathlib.Data.List.Sort
import Mathlib.Data.Finset.Sort

/-! Model of the list, file and matrix helpers of `regain/utils.py`. -/

namespace Verif.Model

set_option autoImplicit false

/-! ### upper_to_full -/

/-- `np.triu_indices(n)`: the index pairs `i ≤ j < n` in row-major order
(regain/utils.py:265). -/
def triuIndices (n : ℕ) : List (ℕ × ℕ) :=
  (List.range n).flatMap fun i => (List.range' i (n - i)).map fun j => (i, j)

/-- `A[idx] = a` for a list of index pairs: the writes happen one after another
(regain/utils.py:266). The matrix is a function of the two indices. -/
def writeAll (A : ℕ × ℕ → ℝ) (l : List ((ℕ × ℕ) × ℝ)) : ℕ × ℕ → ℝ :=
  l.foldl (fun A p => Function.update A p.1 p.2) A

/-- The side `n = int((sqrt(1 + 8 * a.shape[0]) - 1) / 2)` (regain/utils.py:263), with an exact
square root. -/
noncomputable def upperSide (L : ℕ) : ℕ := ⌊(Real.sqrt (1 + 8 * (L : ℝ)) - 1) / 2⌋₊

/-- `upper_to_full` (regain/utils.py:261-267): `none` is numpy's shape mismatch error, otherwise the
side and the matrix. The chained assignment writes the upper triangle first and then the lower. -/
noncomputable def upperToFull (a : List ℝ) : Option (ℕ × (ℕ × ℕ → ℝ)) :=
  let n := upperSide a.length
  let idx := triuIndices n
  if idx.length = a.length then
    some (n, writeAll (writeAll (fun _ => 0) (idx.zip a)) ((idx.map Prod.swap).zip a))
  else none

/-! ### compose and flatten -/

/-- `compose` (regain/utils.py:270-276): `functools.reduce(compose2, functions, identity)`. -/
def compose {α : Type*} (fs : List (α → α)) : α → α := fs.foldl (fun f g => fun x => f (g x)) fun x => x

/-- Arbitrarily nested lists (`list` and `np.ndarray` are not distinguished). -/
inductive Nested (α : Type*) where
  | leaf (a : α)
  | node (l : List (Nested α))

/-- `flatten` (regain/utils.py:252-258). -/
def flatten {α : Type*} : Nested α → List α
  | .leaf a => [a]
  | .node l => (l.attach.map fun ⟨x, _⟩ => flatten x).flatten

/-! ### convert_data_to_2d and the regrouping of the estimators -/

/-- `convert_data_to_2d` (regain/utils.py:279-292): `none` when the classes have different numbers of
rows, for then `np.array` of the label rows is not a rectangular array; also `none` for no classes
(`np.vstack([])` raises). Rows are an arbitrary type. -/
def convertDataTo2d {ρ : Type*} (data : List (List ρ)) : Option (List ρ × List ℕ) :=
  match data with
  | [] => none
  | d :: ds =>
    if ∀ x ∈ ds, x.length = d.length then
      some ((d :: ds).flatten,
        ((d :: ds).mapIdx fun i x => List.replicate x.length i).flatten)
    else none

/-- `X[y == cl]`: the rows whose label is `cl`
(regain/covariance/time_graphical_lasso_.py:484-499). -/
def selectLabel {ρ : Type*} (X : List ρ) (y : List ℕ) (cl : ℕ) : List ρ :=
  (X.zip y).filterMap fun p => if p.2 = cl then some p.1 else none

/-- `[X[y == cl] for cl in np.unique(y)]`
(regain/covariance/time_graphical_lasso_.py:484-499): the regrouping of the estimators. -/
def regroup {ρ : Type*} (X : List ρ) (y : List ℕ) : List (List ρ) :=
  (y.toFinset.sort (· ≤ ·)).map fun cl => selectLabel X y cl

/-! ### file names and pickles -/

/-- `_ensure_filename_ending` (regain/utils.py:133-141) for a list of extensions: the first one is
appended unless the name ends with one of them. (A string extension is the one-element list.)
The names are lists of characters. -/
def ensureFilenameEnding (filename : List Char) (exts : List (List Char)) : List Char :=
  if exts.any fun e => e.isSuffixOf filename then filename else filename ++ exts.headD []

/-- A file system: the contents, already unpickled, of the files that exist. Permissions, directories
and failing writes are not modelled. -/
abbrev FileSystem (α : Type*) := List Char → Option α

/-- The extension `.pkl`. -/
def pklExt : List Char := ".pkl".toList

/-- `save_pickle` (regain/utils.py:174-178). -/
def savePickle {α : Type*} (fs : FileSystem α) (obj : α) (filename : List Char) : FileSystem α :=
  Function.update fs (ensureFilenameEnding filename [pklExt]) (some obj)

/-- `load_pickle` (regain/utils.py:181-185): opens exactly the given name; `none` is
`FileNotFoundError`. -/
def loadPickle {α : Type*} (fs : FileSystem α) (filename : List Char) : Option α := fs filename

/-! ### suppress_stdout -/

/-- Objects `sys.stdout` may be bound to: streams of the program (by number) or the handle opened on
`os.devnull` by the k-th call of `suppress_stdout`. -/
inductive Stream where
  | user (k : ℕ)
  | devnull (k : ℕ)
deriving DecidableEq

/-- Interpreter state: the binding of `sys.stdout`, what was written to each user stream, the number of
devnull handles opened so far. -/
structure IOState where
  stdout : Stream
  written : ℕ → List String
  opened : ℕ

/-- Bodies of `with` blocks: printing, rebinding `sys.stdout`, raising, sequencing, catching, choosing,
and nested `suppress_stdout` blocks (the flag says whether `open(os.devnull)` succeeds). -/
inductive Stmt where
  | skip
  | print (s : String)
  | setStdout (o : Stream)
  | raise
  | seq (a b : Stmt)
  | tryExcept (a b : Stmt)
  | suppress (openOk : Bool) (body : Stmt)

/-- Execution; the flag says whether an exception escapes.
`suppress` follows regain/utils.py:115-130: if the open fails nothing else happens; otherwise the old
binding is saved, `sys.stdout` is the new handle during the body, and the `finally` clause restores the
saved binding whether or not the body raised. Printing to a closed devnull handle
(which would raise) is treated as printing to an open one. -/
def Stmt.exec : Stmt → IOState → IOState × Bool
  | .skip, s => (s, false)
  | .print t, s =>
    match s.stdout with
    | .user k => ({ s with written := Function.update s.written k (s.written k ++ [t]) }, false)
    | .devnull _ => (s, false)
  | .setStdout o, s => ({ s with stdout := o }, false)
  | .raise, s => (s, true)
  | .seq a b, s =>
    let r := a.exec s
    if r.2 then r else b.exec r.1
  | .tryExcept a b, s =>
    let r := a.exec s
    if r.2 then b.exec r.1 else r
  | .suppress openOk body, s =>
    if openOk then
      let old := s.stdout
      let r := body.exec { s with stdout := .devnull s.opened, opened := s.opened + 1 }
      ({ r.1 with stdout := old }, r.2)
    else (s, true)

/-! ### retain_top_n -/

/-- What `bn.argpartition(arr, kth, axis=None)` guarantees about the returned list of flat positions:
a permutation of the positions in which every entry before position `kth` is at most, and every entry
after it at least, the entry at position `kth` (regain/utils.py:86, Bottleneck's documented contract). -/
structure IsArgPartition {N : ℕ} (v : Fin N → ℝ) (kth : ℕ) (idx : List (Fin N)) : Prop where
  nodup : idx.Nodup
  length : idx.length = N
  split : ∀ (i j : ℕ) (a b : Fin N), idx[i]? = some a → idx[j]? = some b → i < kth → kth ≤ j →
    v a ≤ v b

/-- Outcome of a call that may raise. -/
inductive TopN (β : Type*) where
  | valueError
  | done (b : β)

/-- `retain_top_n` (regain/utils.py:83-96) on the flattened matrix of `N` entries (`divmod` by the width
and indexing by the resulting pair is flat indexing again). `argpart` is the library call at this array
and `kth = size - n`; `none` means it raised, which it does for `kth` outside `0 .. size - 1`.
The slice `[-n:]` of a list of length `N` is `drop (N - n)` for `1 ≤ n`, and the whole list for `n = 0`
because `-0 = 0`. -/
noncomputable def retainTopN {N : ℕ} (argpart : (Fin N → ℝ) → ℤ → Option (List (Fin N)))
    (arr : Fin N → ℝ) (n : ℕ) : TopN (Fin N → ℝ) :=
  match argpart (fun i => |arr i|) ((N : ℤ) - n) with
  | none => .valueError
  | some idx =>
    let top := if n = 0 then idx else idx.drop (idx.length - n)
    .done (top.foldl (fun m i => Function.update m i (arr i)) fun _ => 0)

end Verif.Model
