import Verif.Model.Utils
import Mathlib.Data.Fin.Tuple.Sort
import Mathlib.Data.List.OfFn
import Mathlib.Tactic.Linarith
import Mathlib.Tactic.Ring
import Mathlib.Tactic.FieldSimp

/-! Property theorems C33-C38: helpers of `regain/utils.py`. -/

namespace Verif.Props

open Verif.Model

set_option autoImplicit false

/-! ### C33 upper_to_full -/

/-- Specification: the upper triangle of a matrix, row after row, diagonal included. -/
def upperTriangle (n : ℕ) (M : ℕ × ℕ → ℝ) : List ℝ :=
  (List.range n).flatMap fun i => ((List.range n).filter (i ≤ ·)).map fun j => M (i, j)

theorem mem_triuIndices (n i j : ℕ) : (i, j) ∈ triuIndices n ↔ i ≤ j ∧ j < n := by
  simp only [triuIndices, List.mem_flatMap, List.mem_range, List.mem_map, List.mem_range'_1,
    Prod.mk.injEq]
  constructor
  · rintro ⟨a, ha, b, hb, rfl, rfl⟩; omega
  · rintro ⟨h1, h2⟩; exact ⟨i, by omega, j, by omega, rfl, rfl⟩

theorem range'_eq_filter (n i : ℕ) : List.range' i (n - i) = (List.range n).filter (i ≤ ·) := by
  apply List.Perm.eq_of_pairwise (le := (· < ·))
  · intro a b _ _ h1 h2; omega
  · exact List.pairwise_lt_range'
  · exact List.Pairwise.filter _ List.pairwise_lt_range
  · rw [List.perm_ext_iff_of_nodup (List.nodup_range') (List.nodup_range.filter _)]
    intro a
    simp only [List.mem_range'_1, List.mem_filter, List.mem_range, decide_eq_true_eq]
    omega

theorem upperTriangle_eq (n : ℕ) (M : ℕ × ℕ → ℝ) : upperTriangle n M = (triuIndices n).map M := by
  simp only [upperTriangle, triuIndices, List.map_flatMap, ← range'_eq_filter, List.map_map]
  rfl

theorem two_mul_length_triuIndices (n : ℕ) : 2 * (triuIndices n).length = n * (n + 1) := by
  have key : ∀ m, m ≤ n → 2 * ((List.range m).map fun i => n - i).sum = m * (2 * n + 1 - m) := by
    intro m
    induction m with
    | zero => simp
    | succ m ih =>
      intro hm
      rw [List.range_succ, List.map_append, List.sum_append, Nat.mul_add, ih (by omega)]
      obtain ⟨k, rfl⟩ := Nat.exists_eq_add_of_le hm
      simp only [List.map_cons, List.map_nil, List.sum_cons, List.sum_nil]
      have e1 : 2 * (m + 1 + k) + 1 - m = m + 2 * k + 3 := by omega
      have e2 : m + 1 + k - m = k + 1 := by omega
      have e3 : 2 * (m + 1 + k) + 1 - (m + 1) = m + 2 * k + 2 := by omega
      rw [e1, e2, e3]; ring
  have := key n le_rfl
  have e : (triuIndices n).length = ((List.range n).map fun i => n - i).sum := by
    simp [triuIndices, List.length_flatMap]
  rw [e, this]
  congr 1; omega

theorem upperSide_triangular (n L : ℕ) (h : 2 * L = n * (n + 1)) : upperSide L = n := by
  unfold upperSide
  have h' : (2 * (L : ℝ)) = n * (n + 1) := by exact_mod_cast h
  have : (1 + 8 * (L : ℝ)) = (2 * n + 1) ^ 2 := by nlinarith
  rw [this, Real.sqrt_sq (by positivity)]
  have : ((2 * (n : ℝ) + 1 - 1) / 2) = n := by ring
  rw [this, Nat.floor_natCast]

theorem writeAll_append (A : ℕ × ℕ → ℝ) (l : List ((ℕ × ℕ) × ℝ)) (x : (ℕ × ℕ) × ℝ) :
    writeAll A (l ++ [x]) = Function.update (writeAll A l) x.1 x.2 := by
  simp [writeAll, List.foldl_append]

theorem writeAll_not_mem (A : ℕ × ℕ → ℝ) (l : List ((ℕ × ℕ) × ℝ)) (p : ℕ × ℕ)
    (h : p ∉ l.map Prod.fst) : writeAll A l p = A p := by
  induction l using List.reverseRecOn with
  | nil => rfl
  | append_singleton l x ih =>
    simp only [List.map_append, List.mem_append, not_or] at h
    rw [writeAll_append, Function.update_of_ne (by rintro rfl; simp at h), ih h.1]

theorem writeAll_val (A : ℕ × ℕ → ℝ) (l : List ((ℕ × ℕ) × ℝ)) (f : ℕ × ℕ → ℝ)
    (hl : ∀ x ∈ l, x.2 = f x.1) (p : ℕ × ℕ) (h : p ∈ l.map Prod.fst) :
    writeAll A l p = f p := by
  induction l using List.reverseRecOn with
  | nil => simp at h
  | append_singleton l x ih =>
    rw [writeAll_append]
    by_cases hx : p = x.1
    · subst hx; simp [hl x (by simp)]
    · rw [Function.update_of_ne hx]
      refine ih (fun y hy => hl y (by simp [hy])) ?_
      simpa [hx] using h

theorem writeAll_swap (A B : ℕ × ℕ → ℝ) (idx : List (ℕ × ℕ)) (a : List ℝ)
    (hlen : idx.length = a.length) (p : ℕ × ℕ) (h : p ∈ idx) :
    writeAll A (idx.zip a) p = writeAll B ((idx.map Prod.swap).zip a) p.swap := by
  have hz : (idx.map Prod.swap).zip a = (idx.zip a).map fun x => (x.1.swap, x.2) := by
    rw [List.zip_map_left]; rfl
  rw [hz]
  have hp : p ∈ (idx.zip a).map Prod.fst := by
    rw [List.map_fst_zip (by omega)]; exact h
  generalize idx.zip a = l at hp
  induction l using List.reverseRecOn with
  | nil => simp at hp
  | append_singleton l x ih =>
    rw [List.map_append, List.map_singleton, writeAll_append, writeAll_append]
    by_cases hx : p = x.1
    · subst hx; simp
    · rw [Function.update_of_ne hx, Function.update_of_ne (by simpa using hx)]
      refine ih ?_
      simpa [hx] using hp

/-- C33: `upper_to_full` of the upper triangle of a symmetric matrix gives the matrix back. -/
theorem C33_roundtrip (n : ℕ) (M : ℕ × ℕ → ℝ) (hM : ∀ i j, M (i, j) = M (j, i)) :
    ∃ A, upperToFull (upperTriangle n M) = some (n, A) ∧ ∀ i j, i < n → j < n → A (i, j) = M (i, j) := by
  rw [upperTriangle_eq]
  have hn : upperSide ((triuIndices n).map M).length = n :=
    upperSide_triangular n _ (by rw [List.length_map]; exact two_mul_length_triuIndices n)
  have hval : upperToFull ((triuIndices n).map M) = some (n,
      writeAll (writeAll (fun _ => 0) ((triuIndices n).zip ((triuIndices n).map M)))
        (((triuIndices n).map Prod.swap).zip ((triuIndices n).map M))) := by
    unfold upperToFull
    simp only [hn]
    rw [if_pos (by simp)]
  refine ⟨_, hval, ?_⟩
  · intro i j hi hj
    have hv1 : ∀ x ∈ (triuIndices n).zip ((triuIndices n).map M), x.2 = M x.1 := by
      intro x hx
      have e := List.zip_map' (f := fun z => z) (g := M) (l := triuIndices n)
      rw [List.map_id'] at e
      rw [e] at hx
      obtain ⟨y, _, rfl⟩ := List.mem_map.mp hx
      rfl
    have hv2 : ∀ x ∈ ((triuIndices n).map Prod.swap).zip ((triuIndices n).map M), x.2 = M x.1 := by
      intro x hx
      rw [List.zip_map'] at hx
      obtain ⟨z, _, rfl⟩ := List.mem_map.mp hx
      exact hM _ _
    by_cases h : (i, j) ∈ (((triuIndices n).map Prod.swap).zip ((triuIndices n).map M)).map Prod.fst
    · exact writeAll_val _ _ M hv2 _ h
    · rw [writeAll_not_mem _ _ _ h]
      refine writeAll_val _ _ M hv1 _ ?_
      rw [List.map_fst_zip (by simp), mem_triuIndices]
      rw [List.map_fst_zip (by simp), List.mem_map] at h
      by_contra hc
      exact h ⟨(j, i), (mem_triuIndices _ _ _).2 (by omega), rfl⟩

/-- C33: the result, if any, is symmetric. -/
theorem C33_symmetric (a : List ℝ) (n : ℕ) (A : ℕ × ℕ → ℝ) (h : upperToFull a = some (n, A))
    (i j : ℕ) (hi : i < n) (hj : j < n) : A (i, j) = A (j, i) := by
  have key : ∀ i j, i < j → j < n → A (i, j) = A (j, i) := by
    intro i j hij hj
    unfold upperToFull at h
    simp only at h
    split at h
    · rename_i hlen
      simp only [Option.some.injEq, Prod.mk.injEq] at h
      obtain ⟨hn, rfl⟩ := h
      rw [hn] at hlen ⊢
      have hm : (i, j) ∈ triuIndices n := (mem_triuIndices _ _ _).2 ⟨hij.le, hj⟩
      rw [writeAll_not_mem]
      · exact writeAll_swap _ _ _ _ hlen (i, j) hm
      · rw [List.map_fst_zip (by simp [hlen]), List.mem_map]
        rintro ⟨⟨x, y⟩, hxy, he⟩
        rw [mem_triuIndices] at hxy
        simp only [Prod.swap_prod_mk, Prod.mk.injEq] at he
        omega
    · cases h
  rcases lt_trichotomy i j with h1 | h1 | h1
  · exact key i j h1 hj
  · rw [h1]
  · exact (key j i h1 hi).symm

/-- C33: the call fails exactly for lengths that are not triangular numbers. -/
theorem C33_fails_iff (a : List ℝ) : upperToFull a = none ↔ ¬ ∃ n, 2 * a.length = n * (n + 1) := by
  unfold upperToFull
  simp only
  constructor
  · intro h
    rintro ⟨n, hn⟩
    rw [upperSide_triangular n _ hn, if_pos] at h
    · cases h
    · have := two_mul_length_triuIndices n; omega
  · intro h
    rw [if_neg]
    intro he
    exact h ⟨_, by rw [← two_mul_length_triuIndices, he]⟩

/-- Non-vacuity for C33. -/
example : upperTriangle 2 (fun p => (p.1 : ℝ) + p.2) = [0, 1, 2] ∧
    ∀ i j : ℕ, (fun p : ℕ × ℕ => (p.1 : ℝ) + p.2) (i, j) = (fun p : ℕ × ℕ => (p.1 : ℝ) + p.2) (j, i) := by
  refine ⟨?_, fun i j => add_comm _ _⟩
  simp [upperTriangle, List.range_succ, List.flatMap]
  norm_num

/-! ### C34 convert_data_to_2d -/

theorem selectLabel_block {ρ : Type*} (d X : List ρ) (y : List ℕ) (c cl : ℕ) :
    selectLabel (d ++ X) (List.replicate d.length c ++ y) cl =
      (if c = cl then d else []) ++ selectLabel X y cl := by
  unfold selectLabel
  rw [List.zip_append (by simp), List.filterMap_append]
  congr 1
  induction d with
  | nil => simp
  | cons a d ih =>
    simp only [List.length_cons, List.replicate_succ, List.zip_cons_cons, List.filterMap_cons]
    by_cases h : c = cl
    · simp only [h, if_true] at ih ⊢; rw [ih]
    · simp only [h, if_false] at ih ⊢; rw [ih]

theorem selectLabel_labels {ρ : Type*} (data : List (List ρ)) (k cl : ℕ) :
    selectLabel data.flatten (data.mapIdx fun i x => List.replicate x.length (i + k)).flatten cl =
      if cl < k then [] else (data[cl - k]?).getD [] := by
  induction data generalizing k with
  | nil => simp [selectLabel]
  | cons d ds ih =>
    rw [List.mapIdx_cons, List.flatten_cons, List.flatten_cons, Nat.zero_add, selectLabel_block]
    have e : (ds.mapIdx fun i x => List.replicate x.length (i + 1 + k)) =
        ds.mapIdx fun i x => List.replicate x.length (i + (k + 1)) := by
      congr 1; funext i x; congr 1; omega
    rw [e, ih]
    by_cases h1 : cl < k
    · rw [if_neg (by omega : ¬ k = cl), if_pos (by omega : cl < k + 1), if_pos h1]; rfl
    · by_cases h2 : k = cl
      · subst h2; simp
      · rw [if_neg h2, if_neg (by omega), if_neg h1]
        obtain ⟨m, hm⟩ : ∃ m, cl - k = m + 1 := ⟨cl - k - 1, by omega⟩
        rw [hm, List.getElem?_cons_succ, show cl - (k + 1) = m by omega]; rfl

/-- C34: rows are stacked in order, there are as many labels as rows, the rows labelled `i` are exactly
the i-th block, and the regrouping of the estimators recovers the data. -/
theorem C34_lossless {ρ : Type*} (data : List (List ρ)) (m : ℕ) (hne : data ≠ [])
    (hm : ∀ d ∈ data, d.length = m) :
    ∃ y, convertDataTo2d data = some (data.flatten, y) ∧ y.length = data.flatten.length ∧
      (∀ (i : ℕ) (d : List ρ), data[i]? = some d → selectLabel data.flatten y i = d) ∧
      (∀ i, data.length ≤ i → selectLabel data.flatten y i = []) ∧
      (0 < m → regroup data.flatten y = data) := by
  set y := (data.mapIdx fun i x => List.replicate x.length i).flatten with hy
  have hsel : ∀ cl, selectLabel data.flatten y cl = (data[cl]?).getD [] := by
    intro cl
    have := selectLabel_labels data 0 cl
    simpa using this
  refine ⟨y, ?_, ?_, ?_, ?_, ?_⟩
  · unfold convertDataTo2d
    cases data with
    | nil => exact absurd rfl hne
    | cons d ds =>
      simp only
      rw [if_pos]
      intro x hx
      rw [hm x (by simp [hx]), hm d (by simp)]
  · rw [hy, List.length_flatten, List.length_flatten]
    congr 1
    apply List.ext_getElem
    · simp
    · intro i h1 h2; simp
  · intro i d hd; rw [hsel, hd]; rfl
  · intro i hi; rw [hsel, List.getElem?_eq_none hi]; rfl
  · intro hpos
    have hmem : ∀ a, a ∈ y ↔ a < data.length := by
      intro a
      rw [hy, List.mem_flatten]
      constructor
      · rintro ⟨l, hl, ha⟩
        obtain ⟨i, hi, rfl⟩ := List.mem_mapIdx.mp hl
        rw [List.mem_replicate] at ha
        rw [ha.2]; exact hi
      · intro ha
        refine ⟨_, List.mem_mapIdx.mpr ⟨a, ha, rfl⟩, ?_⟩
        rw [List.mem_replicate]
        refine ⟨?_, rfl⟩
        rw [hm _ (List.getElem_mem ha)]; omega
    have hset : y.toFinset = (List.range data.length).toFinset := by
      ext a; simp [hmem]
    unfold regroup
    rw [hset, (List.toFinset_sort (· ≤ ·) List.nodup_range).2 List.pairwise_le_range]
    apply List.ext_getElem
    · simp
    · intro i h1 h2
      simp only [List.getElem_map, List.getElem_range, hsel]
      rw [List.getElem?_eq_getElem h2]; rfl

/-- C34: classes of different sizes make the call fail instead of mislabelling rows. -/
theorem C34_ragged_fails {ρ : Type*} (data : List (List ρ)) (d e : List ρ) (hd : d ∈ data) (he : e ∈ data)
    (h : d.length ≠ e.length) : convertDataTo2d data = none := by
  unfold convertDataTo2d
  cases data with
  | nil => rfl
  | cons c cs =>
    simp only
    rw [if_neg]
    intro hall
    have : ∀ x ∈ c :: cs, x.length = c.length := by
      intro x hx
      rcases List.mem_cons.mp hx with rfl | hx
      · rfl
      · exact hall x hx
    exact h ((this d hd).trans (this e he).symm)

/-- Non-vacuity for C34. -/
example : convertDataTo2d [[10, 11], [20, 21]] = some ([10, 11, 20, 21], [0, 0, 1, 1]) := by
  simp [convertDataTo2d]

/-! ### C35 compose and flatten -/

theorem compose_cons_aux {α : Type*} (fs : List (α → α)) (g : α → α) :
    fs.foldl (fun f g => fun x => f (g x)) g = fun x => g (compose fs x) := by
  induction fs using List.reverseRecOn generalizing g with
  | nil => rfl
  | append_singleton fs f ih =>
    unfold compose at ih ⊢
    rw [List.foldl_append, List.foldl_append, ih g]
    rfl

/-- C35: `compose(f1, ..., fk)(x) = f1(...(fk(x)))`. -/
theorem C35_compose {α : Type*} (fs : List (α → α)) (x : α) :
    compose fs x = fs.foldr (fun f acc => f acc) x := by
  induction fs with
  | nil => rfl
  | cons f fs ih =>
    rw [List.foldr_cons, ← ih]
    unfold compose
    rw [List.foldl_cons, compose_cons_aux]; rfl

/-- C35: the empty composition is the identity and concatenation is composition. -/
theorem C35_compose_append {α : Type*} (fs gs : List (α → α)) (x : α) :
    compose ([] : List (α → α)) x = x ∧ compose (fs ++ gs) x = compose fs (compose gs x) := by
  simp [C35_compose, List.foldr_append]

/-- Specification: the leaves met when the nested list is read from left to right. -/
inductive Leaves {α : Type*} : Nested α → List α → Prop where
  | leaf (a : α) : Leaves (.leaf a) [a]
  | nil : Leaves (.node []) []
  | cons {x : Nested α} {l : List (Nested α)} {u v : List α} :
      Leaves x u → Leaves (.node l) v → Leaves (.node (x :: l)) (u ++ v)

theorem flatten_node {α : Type*} (l : List (Nested α)) :
    flatten (.node l) = (l.map flatten).flatten := by
  rw [flatten]; simp

/-- C35: `flatten` returns the leaves in order. -/
theorem C35_flatten_leaves {α : Type*} : ∀ t : Nested α, Leaves t (flatten t)
  | .leaf a => by rw [flatten]; exact .leaf a
  | .node [] => by rw [flatten_node]; exact .nil
  | .node (x :: l) => by
    have h1 := C35_flatten_leaves x
    have h2 := C35_flatten_leaves (.node l)
    rw [flatten_node, List.map_cons, List.flatten_cons, ← flatten_node]
    exact .cons h1 h2

/-- C35: nothing else has the leaf list of a nested list: `flatten` is the only possible answer. -/
theorem C35_flatten_unique {α : Type*} {t : Nested α} {u : List α} (h : Leaves t u) : u = flatten t := by
  induction h with
  | leaf a => rw [flatten]
  | nil => rw [flatten_node]; rfl
  | cons h1 h2 ih1 ih2 =>
    rw [flatten_node, List.map_cons, List.flatten_cons, ← flatten_node, ih1, ih2]

/-- C35: flattening distributes over concatenation and is idempotent. -/
theorem C35_flatten_laws {α : Type*} (l m : List (Nested α)) (t : Nested α) :
    flatten (.node (l ++ m)) = flatten (.node l) ++ flatten (.node m) ∧
    flatten (.node ((flatten t).map .leaf)) = flatten t := by
  constructor
  · simp [flatten_node]
  · rw [flatten_node, List.map_map]
    have : (flatten ∘ Nested.leaf : α → List α) = fun a => [a] := by
      funext a; simp [flatten]
    rw [this]
    induction flatten t with
    | nil => rfl
    | cons a l ih => simp [ih]

/-- Non-vacuity for C35. -/
example : flatten (.node [.leaf 1, .node [.node [.leaf 2], .node []], .leaf 3]) = [1, 2, 3] := by
  simp [flatten]

/-! ### C36 pickles -/

/-- C36 (partial): names ending in `.pkl` are read back; other files are untouched.
Missing: all other names, see `C36_roundtrip_false`. -/
theorem C36_roundtrip_partial {α : Type*} (fs : FileSystem α) (obj : α) (base : List Char) :
    loadPickle (savePickle fs obj (base ++ pklExt)) (base ++ pklExt) = some obj ∧
    ∀ g, g ≠ base ++ pklExt → savePickle fs obj (base ++ pklExt) g = fs g := by
  have : ensureFilenameEnding (base ++ pklExt) [pklExt] = base ++ pklExt := by
    unfold ensureFilenameEnding
    rw [if_pos]
    simp [List.isSuffixOf_iff_suffix]
  constructor
  · simp [loadPickle, savePickle, this]
  · intro g hg
    simp [savePickle, this, hg]

/-- C36 is false for every name without the extension: loading returns whatever was stored under the
bare name before (nothing, or a stale object), and the object is under `name.pkl`. -/
theorem C36_roundtrip_false {α : Type*} (fs : FileSystem α) (obj : α) (name : List Char)
    (h : ¬ pklExt <:+ name) :
    loadPickle (savePickle fs obj name) name = fs name ∧
    loadPickle (savePickle fs obj name) (name ++ pklExt) = some obj := by
  have : ensureFilenameEnding name [pklExt] = name ++ pklExt := by
    unfold ensureFilenameEnding
    rw [if_neg]
    · rfl
    · simp [List.isSuffixOf_iff_suffix, h]
  constructor
  · simp only [loadPickle, savePickle, this]
    rw [Function.update_of_ne]
    intro he
    have := congrArg List.length he
    simp [pklExt] at this
  · simp [loadPickle, savePickle, this]

/-- C36: the statement fails already on an empty file system. -/
theorem C36_counterexample :
    loadPickle (savePickle (fun _ => none) (1 : ℕ) "model".toList) "model".toList ≠ some 1 := by
  rw [(C36_roundtrip_false _ _ _ (by decide)).1]
  simp

/-! ### C37 suppress_stdout -/

/-- C37: whatever the body does, `sys.stdout` is the same object after the block as before. -/
theorem C37_restores (body : Stmt) (ok : Bool) (s : IOState) :
    ((Stmt.suppress ok body).exec s).1.stdout = s.stdout := by
  cases ok <;> simp [Stmt.exec]

/-- C37: an exception of the body is not swallowed, and none is invented. -/
theorem C37_propagates (body : Stmt) (s : IOState) :
    ((Stmt.suppress true body).exec s).2 =
      (body.exec { s with stdout := .devnull s.opened, opened := s.opened + 1 }).2 := by
  simp [Stmt.exec]

/-- The body does not rebind `sys.stdout` itself (outside of nested blocks or within). -/
def Stmt.NoRebind : Stmt → Prop
  | .setStdout _ => False
  | .seq a b => NoRebind a ∧ NoRebind b
  | .tryExcept a b => NoRebind a ∧ NoRebind b
  | .suppress _ body => NoRebind body
  | _ => True

theorem exec_noRebind (b : Stmt) (hb : Stmt.NoRebind b) :
    ∀ s : IOState, (b.exec s).1.stdout = s.stdout ∧
      (∀ k, s.stdout = .devnull k → (b.exec s).1.written = s.written) := by
  induction b with
  | skip => intro s; simp [Stmt.exec]
  | print t =>
    intro s
    simp only [Stmt.exec]
    cases h : s.stdout <;> simp [h]
  | setStdout o => exact absurd hb (by simp [Stmt.NoRebind])
  | raise => intro s; simp [Stmt.exec]
  | seq a b iha ihb =>
    intro s
    have h1 := iha hb.1 s
    have h2 := ihb hb.2 (a.exec s).1
    simp only [Stmt.exec]
    split
    · exact h1
    · refine ⟨h2.1.trans h1.1, fun k hk => ?_⟩
      rw [h2.2 k (h1.1.trans hk), h1.2 k hk]
  | tryExcept a b iha ihb =>
    intro s
    have h1 := iha hb.1 s
    have h2 := ihb hb.2 (a.exec s).1
    simp only [Stmt.exec]
    split
    · refine ⟨h2.1.trans h1.1, fun k hk => ?_⟩
      rw [h2.2 k (h1.1.trans hk), h1.2 k hk]
    · exact h1
  | suppress ok body ih =>
    intro s
    cases ok
    · simp [Stmt.exec]
    · have h := ih hb { s with stdout := .devnull s.opened, opened := s.opened + 1 }
      simp only [Stmt.exec, if_true, true_and]
      intro k _
      exact h.2 _ rfl

/-- C37: a body that does not rebind `sys.stdout` prints nothing to any stream of the program. -/
theorem C37_silent (body : Stmt) (hb : Stmt.NoRebind body) (ok : Bool) (s : IOState) :
    ((Stmt.suppress ok body).exec s).1.written = s.written := by
  cases ok
  · simp [Stmt.exec]
  · have h := exec_noRebind body hb { s with stdout := .devnull s.opened, opened := s.opened + 1 }
    simp only [Stmt.exec, if_true]
    exact h.2 _ rfl

/-- Non-vacuity for C37: a nested raising body, and a print that would be visible outside. -/
example : Stmt.NoRebind (.seq (.print "a") (.suppress true .raise)) ∧
    ((Stmt.print "a").exec ⟨.user 0, fun _ => [], 0⟩).1.written 0 = ["a"] := by
  simp [Stmt.NoRebind, Stmt.exec]

/-! ### C38 retain_top_n -/

theorem foldl_update {N : ℕ} (arr : Fin N → ℝ) (top : List (Fin N)) (m0 : Fin N → ℝ) (i : Fin N) :
    top.foldl (fun m i => Function.update m i (arr i)) m0 i = if i ∈ top then arr i else m0 i := by
  induction top generalizing m0 with
  | nil => simp
  | cons t ts ih =>
    rw [List.foldl_cons, ih]
    by_cases h : i ∈ ts
    · simp [h]
    · by_cases h2 : i = t
      · subst h2; simp
      · simp [h, h2]

/-- The documented behaviour of `bn.argpartition`: a partition for `0 ≤ kth < size`. -/
def IsArgPartitioner {N : ℕ} (argpart : (Fin N → ℝ) → ℤ → Option (List (Fin N))) : Prop :=
  ∀ (v : Fin N → ℝ) (k : ℕ), k < N → ∃ idx, argpart v k = some idx ∧ IsArgPartition v k idx

/-- Such a function exists (sort everything). -/
theorem exists_argPartitioner (N : ℕ) :
    ∃ argpart : (Fin N → ℝ) → ℤ → Option (List (Fin N)), IsArgPartitioner argpart := by
  refine ⟨fun v _ => some (List.ofFn (Tuple.sort v)), fun v k hk => ⟨_, rfl, ?_, by simp, ?_⟩⟩
  · rw [List.nodup_ofFn]; exact (Tuple.sort v).injective
  · intro i j a b ha hb hik hkj
    rw [List.getElem?_eq_some_iff] at ha hb
    obtain ⟨h1, rfl⟩ := ha
    obtain ⟨h2, rfl⟩ := hb
    rw [List.getElem_ofFn, List.getElem_ofFn]
    exact Tuple.monotone_sort v (by simp only [Fin.le_def]; omega)

/-- C38: for `1 ≤ n ≤ size` exactly `n` positions keep their value, the others are 0, and every kept
magnitude is at least every dropped one. -/
theorem C38_retain_top_n {N : ℕ} (argpart : (Fin N → ℝ) → ℤ → Option (List (Fin N)))
    (hap : IsArgPartitioner argpart) (arr : Fin N → ℝ) (n : ℕ) (h1 : 1 ≤ n) (h2 : n ≤ N) :
    ∃ (kept : Finset (Fin N)) (out : Fin N → ℝ), retainTopN argpart arr n = .done out ∧
      kept.card = n ∧ (∀ i ∈ kept, out i = arr i) ∧ (∀ i, i ∉ kept → out i = 0) ∧
      ∀ i ∈ kept, ∀ j, j ∉ kept → |arr j| ≤ |arr i| := by
  obtain ⟨idx, he, hp⟩ := hap (fun i => |arr i|) (N - n) (by omega)
  have he' : argpart (fun i => |arr i|) ((N : ℤ) - n) = some idx := by
    rw [← he]; congr 1; omega
  have hmem : ∀ j, j ∈ idx := by
    have hcard : idx.toFinset = Finset.univ := by
      apply Finset.eq_univ_of_card
      rw [List.toFinset_card_of_nodup hp.nodup, hp.length, Fintype.card_fin]
    intro j
    rw [← List.mem_toFinset, hcard]; exact Finset.mem_univ _
  have hval : retainTopN argpart arr n = .done ((idx.drop (idx.length - n)).foldl
      (fun m i => Function.update m i (arr i)) fun _ => 0) := by
    unfold retainTopN
    rw [he']
    simp only
    rw [if_neg (by omega)]
  refine ⟨(idx.drop (idx.length - n)).toFinset, _, hval, ?_, ?_, ?_, ?_⟩
  · rw [List.toFinset_card_of_nodup (hp.nodup.sublist (List.drop_sublist _ _)), List.length_drop,
      hp.length]; omega
  · intro i hi
    rw [foldl_update, if_pos (List.mem_toFinset.mp hi)]
  · intro i hi
    rw [foldl_update, if_neg (by rwa [List.mem_toFinset] at hi)]
  · intro i hi j hj
    rw [List.mem_toFinset] at hi hj
    obtain ⟨a, ha⟩ := List.mem_iff_getElem?.mp hi
    rw [List.getElem?_drop] at ha
    obtain ⟨b, hb⟩ := List.mem_iff_getElem?.mp (hmem j)
    refine hp.split b _ j i hb ha ?_ (by rw [hp.length]; omega)
    by_contra hc
    apply hj
    rw [List.mem_iff_getElem?]
    refine ⟨b - (idx.length - n), ?_⟩
    rw [List.getElem?_drop, ← hb]
    congr 1
    rw [hp.length]; omega

/-- C38, the clause for `n = 0` is false: if the library accepts `kth = size` and returns the positions
in any order, the whole matrix is kept, otherwise the call raises; a non-zero matrix is never
emptied. -/
theorem C38_zero_false {N : ℕ} (argpart : (Fin N → ℝ) → ℤ → Option (List (Fin N)))
    (hall : ∀ v k idx, argpart v k = some idx → ∀ j, j ∈ idx) (arr : Fin N → ℝ) :
    retainTopN argpart arr 0 = .valueError ∨ retainTopN argpart arr 0 = .done arr := by
  unfold retainTopN
  cases h : argpart (fun i => |arr i|) ((N : ℤ) - (0 : ℕ)) with
  | none => exact Or.inl rfl
  | some idx =>
    refine Or.inr ?_
    simp only [if_true]
    congr 1
    funext i
    rw [foldl_update, if_pos (hall _ _ _ h i)]

end Verif.Props
