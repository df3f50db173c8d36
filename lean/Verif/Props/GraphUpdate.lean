import Verif.Lemmas.Ising
import Verif.Model.GraphGen
import Mathlib.Tactic.FinCases
import Mathlib.Tactic.NormNum

/-! Properties of the random graph updates and of the generators (C53, C83, C84). -/

namespace Verif.Props

open Verif.Model Verif.Spec Verif.Lemmas Matrix

set_option autoImplicit false
set_option linter.unusedSectionVars false

variable {p : ℕ}

/-! ### C53 -/

theorem setSym_symm (t : Matrix (Fin p) (Fin p) ℝ) (ht : t.IsSymm) (r c : Fin p) (v : ℝ) :
    (setSym t r c v).IsSymm := by
  ext i j
  simp only [setSym, Matrix.transpose_apply, Matrix.of_apply]
  have h : ((j = c ∧ i = r) ∨ (j = r ∧ i = c)) ↔ ((i = c ∧ j = r) ∨ (i = r ∧ j = c)) := by tauto
  simp only [h, ht.apply i j]

theorem updateLoop_inv (edit : Matrix (Fin p) (Fin p) ℝ → Draw p → Matrix (Fin p) (Fin p) ℝ)
    (I : Matrix (Fin p) (Fin p) ℝ → Prop) (hI : ∀ t d, I t → I (edit t d)) :
    ∀ (rounds : List (List (Draw p))) (t u : Matrix (Fin p) (Fin p) ℝ), I t →
      updateLoop edit rounds t = some u → I u := by
  have hf : ∀ (ds : List (Draw p)) t, I t → I (ds.foldl edit t) := by
    intro ds
    induction ds with
    | nil => intro t h; exact h
    | cons d ds ih => intro t h; exact ih _ (hI t d h)
  intro rounds
  induction rounds with
  | nil => intro t u _ h; simp [updateLoop] at h
  | cons ds rest ih =>
      intro t u ht h
      unfold updateLoop at h
      split at h
      · exact ih _ u (hf ds t ht) h
      · cases h; exact hf ds t ht

theorem isingEdit_symm (r0 r1 : ℝ) (t : Matrix (Fin p) (Fin p) ℝ) (d : Draw p) (h : t.IsSymm) :
    (isingEdit r0 r1 t d).IsSymm := setSym_symm t h _ _ _

theorem poissonEdit_symm (t : Matrix (Fin p) (Fin p) ℝ) (d : Draw p) (h : t.IsSymm) :
    (poissonEdit t d).IsSymm := setSym_symm t h _ _ _

/-- The returned graph is symmetric, for every stream on which the function returns. -/
theorem C53_symmetric (r0 r1 : ℝ) (no : ℕ) (rounds : List (List (Draw p)))
    (theta out : Matrix (Fin p) (Fin p) ℝ) :
    (updateIsingL1 r0 r1 no rounds theta = some out → out.IsSymm) ∧
      (updateL1 no rounds theta = some out → out.IsSymm) := by
  constructor
  · intro h
    unfold updateIsingL1 at h
    split at h
    · cases h
    · split at h
      · rename_i ht; cases h; exact ht.symm
      · cases h
  · intro h
    unfold updateL1 at h
    split at h
    · cases h
    · split at h
      · rename_i ht; cases h; exact ht.symm
      · cases h

/-- From a symmetric graph the symmetry assertion never fails: the function returns whenever its loop
stops. -/
theorem C53_assertion_holds (r0 r1 : ℝ) (no : ℕ) (rounds : List (List (Draw p)))
    (theta t : Matrix (Fin p) (Fin p) ℝ) (hs : theta.IsSymm) (hno : no ≠ 0) :
    (updateLoop (isingEdit r0 r1) rounds theta = some t →
      updateIsingL1 r0 r1 no rounds theta = some t) ∧
    (updateLoop poissonEdit rounds theta = some t → updateL1 no rounds theta = some t) := by
  constructor
  · intro h
    have := updateLoop_inv (isingEdit r0 r1) Matrix.IsSymm (fun t d => isingEdit_symm r0 r1 t d) rounds
      theta t hs h
    unfold updateIsingL1
    rw [if_neg hno, h]
    simp only
    rw [if_pos this.symm]
  · intro h
    have := updateLoop_inv poissonEdit Matrix.IsSymm (fun t d => poissonEdit_symm t d) rounds
      theta t hs h
    unfold updateL1
    rw [if_neg hno, h]
    simp only
    rw [if_pos this.symm]

theorem setSym_differ (t : Matrix (Fin p) (Fin p) ℝ) (r c : Fin p) (v : ℝ) (i j : Fin p)
    (h : setSym t r c v i j ≠ t i j) : (i, j) = (r, c) ∨ (j, i) = (r, c) := by
  simp only [setSym, Matrix.of_apply] at h
  by_contra hc
  apply h
  rw [if_neg]
  rintro (⟨rfl, rfl⟩ | ⟨rfl, rfl⟩)
  · exact hc (Or.inr rfl)
  · exact hc (Or.inl rfl)

theorem foldl_differ (edit : Matrix (Fin p) (Fin p) ℝ → Draw p → Matrix (Fin p) (Fin p) ℝ)
    (he : ∀ t d i j, edit t d i j ≠ t i j → (i, j) = (d.r, d.c) ∨ (j, i) = (d.r, d.c)) :
    ∀ (ds : List (Draw p)) (t : Matrix (Fin p) (Fin p) ℝ) (i j : Fin p), ds.foldl edit t i j ≠ t i j →
      (i, j) ∈ ds.map (fun d => (d.r, d.c)) ∨ (j, i) ∈ ds.map (fun d => (d.r, d.c)) := by
  intro ds
  induction ds with
  | nil => intro t i j h; exact absurd rfl h
  | cons d ds ih =>
      intro t i j h
      by_cases h1 : edit t d i j = t i j
      · rw [List.foldl_cons, ← h1] at h
        rcases ih _ i j h with h | h
        · left; exact List.mem_cons_of_mem _ h
        · right; exact List.mem_cons_of_mem _ h
      · rcases he t d i j h1 with h | h
        · left; rw [h]; simp
        · right; rw [h]; simp

theorem updateLoop_differ (edit : Matrix (Fin p) (Fin p) ℝ → Draw p → Matrix (Fin p) (Fin p) ℝ)
    (he : ∀ t d i j, edit t d i j ≠ t i j → (i, j) = (d.r, d.c) ∨ (j, i) = (d.r, d.c)) (no : ℕ) :
    ∀ (rounds : List (List (Draw p))), (∀ ds ∈ rounds, ds.length = no) →
      ∀ (t u : Matrix (Fin p) (Fin p) ℝ), updateLoop edit rounds t = some u →
      DifferInAtMost (no * rounds.length) u t := by
  intro rounds
  induction rounds with
  | nil => intro _ t u h; simp [updateLoop] at h
  | cons ds rest ih =>
      intro hl t u h
      have hds := hl ds (by simp)
      unfold updateLoop at h
      split at h
      · obtain ⟨es, hes, hm⟩ := ih (fun d hd => hl d (by simp [hd])) _ u h
        refine ⟨ds.map (fun d => (d.r, d.c)) ++ es, ?_, ?_⟩
        · simp only [List.length_append, List.length_map, List.length_cons, hds]
          rw [Nat.mul_succ]; omega
        · intro i j hij
          by_cases h1 : u i j = ds.foldl edit t i j
          · rw [h1] at hij
            rcases foldl_differ edit he ds t i j hij with h | h
            · left; exact List.mem_append_left _ h
            · right; exact List.mem_append_left _ h
          · rcases hm i j h1 with h | h
            · left; exact List.mem_append_right _ h
            · right; exact List.mem_append_right _ h
      · cases h
        refine ⟨ds.map (fun d => (d.r, d.c)), ?_, fun i j hij => foldl_differ edit he ds t i j hij⟩
        simp only [List.length_map, List.length_cons, hds]
        nlinarith [Nat.zero_le (no * rest.length)]

theorem isingEdit_differ (r0 r1 : ℝ) (t : Matrix (Fin p) (Fin p) ℝ) (d : Draw p) (i j : Fin p)
    (h : isingEdit r0 r1 t d i j ≠ t i j) : (i, j) = (d.r, d.c) ∨ (j, i) = (d.r, d.c) :=
  setSym_differ t d.r d.c _ i j h

theorem poissonEdit_differ (t : Matrix (Fin p) (Fin p) ℝ) (d : Draw p) (i j : Fin p)
    (h : poissonEdit t d i j ≠ t i j) : (i, j) = (d.r, d.c) ∨ (j, i) = (d.r, d.c) :=
  setSym_differ t d.r d.c _ i j h

theorem isingEdit_diag (r0 r1 : ℝ) (t : Matrix (Fin p) (Fin p) ℝ) (d : Draw p) (hd : d.r ≠ d.c)
    (h : ∀ i, t i i = 0) : ∀ i, isingEdit r0 r1 t d i i = 0 := by
  intro i
  by_contra hne
  rw [← h i] at hne
  rcases isingEdit_differ r0 r1 t d i i hne with h | h
  all_goals
    rw [Prod.mk.injEq] at h
    exact hd (h.1.symm.trans h.2)

theorem poissonEdit_diag (t : Matrix (Fin p) (Fin p) ℝ) (d : Draw p) (h : ∀ i, t i i = 0) :
    ∀ i, poissonEdit t d i i = 0 := by
  intro i
  simp only [poissonEdit, setSym, Matrix.of_apply]
  split
  · rename_i hc
    have hrc : d.r = d.c := by
      rcases hc with ⟨h1, h2⟩ | ⟨h1, h2⟩
      · exact h2.symm.trans h1
      · exact h1.symm.trans h2
    rw [hrc, h d.c]; simp
  · exact h i

theorem poissonEdit_sub (t : Matrix (Fin p) (Fin p) ℝ) (d : Draw p) (hs : t.IsSymm) (i j : Fin p) :
    poissonEdit t d i j = t i j ∨ poissonEdit t d i j = 0 := by
  simp only [poissonEdit, setSym, Matrix.of_apply]
  split
  · rename_i hc
    by_cases hp : d.pick = true
    · left
      rw [if_pos hp]
      rcases hc with ⟨rfl, rfl⟩ | ⟨rfl, rfl⟩
      · exact hs.apply _ _
      · rfl
    · right; rw [if_neg hp]
  · left; rfl

/-- For every stream the number of changed edges is at most `no` times the number of rounds drawn. Missing:
the bound `no` (`C53_ising_false`, `C53_poisson_false`). -/
theorem C53_changes_partial (r0 r1 : ℝ) (no : ℕ) (rounds : List (List (Draw p)))
    (hl : ∀ ds ∈ rounds, ds.length = no) (theta out : Matrix (Fin p) (Fin p) ℝ) :
    (updateIsingL1 r0 r1 no rounds theta = some out →
      DifferInAtMost (no * rounds.length) out theta) ∧
    (updateL1 no rounds theta = some out → DifferInAtMost (no * rounds.length) out theta) := by
  constructor
  · intro h
    unfold updateIsingL1 at h
    split at h
    · cases h
    · rename_i t ht
      split at h
      · cases h
        split at ht
        · cases ht; exact ⟨[], by simp, fun i j h => absurd rfl h⟩
        · exact updateLoop_differ _ (isingEdit_differ r0 r1) no rounds hl _ _ ht
      · cases h
  · intro h
    unfold updateL1 at h
    split at h
    · cases h
    · rename_i t ht
      split at h
      · cases h
        split at ht
        · cases ht; exact ⟨[], by simp, fun i j h => absurd rfl h⟩
        · exact updateLoop_differ _ poissonEdit_differ no rounds hl _ _ ht
      · cases h

/-- When the first round contains no equal pair, the full claim holds: the Ising update returns a symmetric
graph with zero diagonal that differs in at most `no` edges. Missing: streams whose first round is
rejected. -/
theorem C53_first_round_partial (r0 r1 : ℝ) (no : ℕ) (ds : List (Draw p)) (rest : List (List (Draw p)))
    (hl : ds.length = no) (hno : no ≠ 0) (hds : ∀ d ∈ ds, d.r ≠ d.c) (theta : Matrix (Fin p) (Fin p) ℝ)
    (hs : theta.IsSymm) (hd : ∀ i, theta i i = 0) :
    ∃ out, updateIsingL1 r0 r1 no (ds :: rest) theta = some out ∧ out.IsSymm ∧ (∀ i, out i i = 0) ∧
      DifferInAtMost no out theta := by
  have hloop : hasLoop ds = false := by
    simp only [hasLoop, List.any_eq_false, decide_eq_true_eq]
    exact hds
  have hstop : updateLoop (isingEdit r0 r1) (ds :: rest) theta = some (ds.foldl (isingEdit r0 r1) theta) := by
    simp [updateLoop, hloop]
  have hret := (C53_assertion_holds r0 r1 no (ds :: rest) theta _ hs hno).1 hstop
  refine ⟨_, hret, (C53_symmetric r0 r1 no (ds :: rest) theta _).1 hret, ?_, ?_⟩
  · have : ∀ (l : List (Draw p)), (∀ d ∈ l, d.r ≠ d.c) → ∀ t : Matrix (Fin p) (Fin p) ℝ,
        (∀ i, t i i = 0) → ∀ i, l.foldl (isingEdit r0 r1) t i i = 0 := by
      intro l
      induction l with
      | nil => intro _ t h; exact h
      | cons d l ih =>
          intro hl t h
          exact ih (fun e he => hl e (by simp [he])) _ (isingEdit_diag r0 r1 t d (hl d (by simp)) h)
    exact this ds hds theta hd
  · exact ⟨ds.map (fun d => (d.r, d.c)), by simp [hl], fun i j hij =>
      foldl_differ _ (isingEdit_differ r0 r1) ds theta i j hij⟩

/-- The Poisson update keeps a zero diagonal and only ever removes edges, for every stream: every entry
keeps its value or becomes 0. -/
theorem C53_poisson_removes (no : ℕ) (rounds : List (List (Draw p))) (g out : Matrix (Fin p) (Fin p) ℝ)
    (hs : g.IsSymm) (hd : ∀ i, g i i = 0) (h : updateL1 no rounds g = some out) :
    out.IsSymm ∧ (∀ i, out i i = 0) ∧ ∀ i j, out i j = g i j ∨ out i j = 0 := by
  have hsym := (C53_symmetric 0 0 no rounds g out).2 h
  unfold updateL1 at h
  split at h
  · cases h
  · rename_i t ht
    split at h
    · cases h
      split at ht
      · cases ht; exact ⟨hsym, hd, fun i j => Or.inl rfl⟩
      · have := updateLoop_inv poissonEdit
          (fun t => t.IsSymm ∧ (∀ i, t i i = 0) ∧ ∀ i j, t i j = g i j ∨ t i j = 0) ?_ rounds g out
          ⟨hs, hd, fun i j => Or.inl rfl⟩ ht
        · exact this
        · rintro t d ⟨h1, h2, h3⟩
          refine ⟨poissonEdit_symm t d h1, poissonEdit_diag t d h2, fun i j => ?_⟩
          rcases poissonEdit_sub t d h1 i j with h | h
          · rw [h]; exact h3 i j
          · right; exact h
    · cases h

/-- The Ising claim fails: one edge is asked for, the first round draws the pair (0, 0), whose edit is kept;
the returned graph has a nonzero diagonal entry and a changed edge besides. -/
theorem C53_ising_false :
    ∃ (rounds : List (List (Draw 2))) (out : Matrix (Fin 2) (Fin 2) ℝ),
      (∀ ds ∈ rounds, ds.length = 1) ∧ updateIsingL1 (-1) 1 1 rounds 0 = some out ∧
      out 0 0 ≠ 0 ∧ ¬ DifferInAtMost 1 out 0 := by
  set e1 : Draw 2 := ⟨0, 0, true⟩ with he1
  set e2 : Draw 2 := ⟨0, 1, true⟩ with he2
  have hsy : (0 : Matrix (Fin 2) (Fin 2) ℝ).IsSymm := by ext i j; rfl
  have hloop : updateLoop (isingEdit (-1) 1) [[e1], [e2]] (0 : Matrix (Fin 2) (Fin 2) ℝ) =
      some (isingEdit (-1) 1 (isingEdit (-1) 1 0 e1) e2) := by
    simp [updateLoop, hasLoop, he1, he2]
  have hret := (C53_assertion_holds (-1) 1 1 [[e1], [e2]] 0 _ hsy one_ne_zero).1 hloop
  have h00 : isingEdit (-1) 1 (isingEdit (-1) 1 0 e1) e2 0 0 = 1 := by
    simp [isingEdit, setSym, he1, he2]
  have h01 : isingEdit (-1) 1 (isingEdit (-1) 1 0 e1) e2 0 1 = 1 := by
    simp [isingEdit, setSym, he1, he2]
  refine ⟨_, _, by simp, hret, by rw [h00]; norm_num, ?_⟩
  rintro ⟨es, hlen, hes⟩
  have a1 := hes 0 0 (by rw [h00]; simp)
  have a2 := hes 0 1 (by rw [h01]; simp)
  match es, hlen with
  | [], _ => simp at a1
  | [e], _ =>
      simp only [List.mem_singleton] at a1 a2
      rw [or_self] at a1
      rw [← a1] at a2
      simp at a2
  | _ :: _ :: _, h => simp at h

/-- The Poisson update can remove more edges than asked for: from the complete graph on three nodes with two
edges asked for, all three are removed. -/
theorem C53_poisson_false :
    ∃ (rounds : List (List (Draw 3))) (g out : Matrix (Fin 3) (Fin 3) ℝ), g.IsSymm ∧ (∀ i, g i i = 0) ∧
      (∀ ds ∈ rounds, ds.length = 2) ∧ updateL1 2 rounds g = some out ∧ ¬ DifferInAtMost 2 out g := by
  set d1 : Draw 3 := ⟨0, 1, false⟩ with hd1
  set d2 : Draw 3 := ⟨2, 2, false⟩ with hd2
  set d3 : Draw 3 := ⟨0, 2, false⟩ with hd3
  set d4 : Draw 3 := ⟨1, 2, false⟩ with hd4
  set g : Matrix (Fin 3) (Fin 3) ℝ := Matrix.of fun i j => if i = j then 0 else 1 with hg
  have hsy : g.IsSymm := by
    ext i j; simp only [hg, Matrix.transpose_apply, Matrix.of_apply, eq_comm]
  have hloop : updateLoop poissonEdit [[d1, d2], [d3, d4]] g =
      some (poissonEdit (poissonEdit (poissonEdit (poissonEdit g d1) d2) d3) d4) := by
    simp [updateLoop, hasLoop, hd1, hd2, hd3, hd4]
  have hret := (C53_assertion_holds 0 0 2 [[d1, d2], [d3, d4]] g _ hsy two_ne_zero).2 hloop
  set out := poissonEdit (poissonEdit (poissonEdit (poissonEdit g d1) d2) d3) d4 with hout
  have h01 : out 0 1 = 0 := by simp [hout, poissonEdit, setSym, hd1, hd2, hd3, hd4]
  have h02 : out 0 2 = 0 := by simp [hout, poissonEdit, setSym, hd1, hd2, hd3, hd4]
  have h12 : out 1 2 = 0 := by simp [hout, poissonEdit, setSym, hd1, hd2, hd3, hd4]
  refine ⟨_, g, out, hsy, fun i => by simp [hg], by simp, hret, ?_⟩
  rintro ⟨es, hlen, hes⟩
  have a1 := hes 0 1 (by rw [h01]; simp [hg])
  have a2 := hes 0 2 (by rw [h02]; simp [hg])
  have a3 := hes 1 2 (by rw [h12]; simp [hg])
  match es, hlen with
  | [], _ => simp at a1
  | [e], _ =>
      obtain ⟨x, y⟩ := e
      simp only [List.mem_singleton, Prod.mk.injEq] at a1 a2
      omega
  | [e, f], _ =>
      obtain ⟨x, y⟩ := e
      obtain ⟨z, w⟩ := f
      simp only [List.mem_cons, List.not_mem_nil, or_false, Prod.mk.injEq] at a1 a2 a3
      omega
  | _ :: _ :: _ :: _, h => simp at h

/-- Hypotheses of `C53_first_round_partial`. -/
example : ∃ (ds : List (Draw 2)) (theta : Matrix (Fin 2) (Fin 2) ℝ), ds.length = 1 ∧
    (∀ d ∈ ds, d.r ≠ d.c) ∧ theta.IsSymm ∧ (∀ i, theta i i = 0) ∧ theta 0 1 = 1 :=
  ⟨[⟨0, 1, true⟩], !![0, 1; 1, 0], rfl, by simp, by ext i j; fin_cases i <;> fin_cases j <;> rfl,
    by intro i; fin_cases i <;> rfl, rfl⟩

/-! ### C83: sequences of graphs -/

/-- The generators return one graph more than the number of update steps, all of them symmetric, the first
being the initial graph. -/
theorem C83_symmetric_sequence (r0 r1 : ℝ) (change : ℕ) (steps : List (List (List (Draw p)))) :
    ∀ (g : Matrix (Fin p) (Fin p) ℝ), g.IsSymm → ∀ out,
    isingThetas r0 r1 change g steps = some out →
    out.length = steps.length + 1 ∧ out.head? = some g ∧ ∀ t ∈ out, t.IsSymm := by
  induction steps with
  | nil =>
      intro g hg out h
      simp only [isingThetas, Option.some.injEq] at h
      subst h
      simp [hg]
  | cons rounds rest ih =>
      intro g hg out h
      unfold isingThetas at h
      split at h
      · cases h
      · rename_i t ht
        rw [Option.map_eq_some_iff] at h
        obtain ⟨l, hl, rfl⟩ := h
        obtain ⟨h1, h2, h3⟩ := ih t ((C53_symmetric _ _ _ _ _ _).1 ht) l hl
        refine ⟨by simp [h1], rfl, ?_⟩
        intro x hx
        rcases List.mem_cons.mp hx with rfl | hx
        · exact hg
        · exact h3 x hx

theorem fillDiagZero_symm (g : Matrix (Fin p) (Fin p) ℝ) (h : g.IsSymm) : (fillDiagZero g).IsSymm := by
  ext i j
  simp only [fillDiagZero, Matrix.transpose_apply, Matrix.of_apply, h.apply i j, eq_comm]

/-- The Poisson generator: symmetric graphs with zero diagonal, and every later graph is a subgraph of the
initial one, so an edge that is absent once never appears. -/
theorem C83_poisson_sequence (change : ℕ) (steps : List (List (List (Draw p)))) :
    ∀ (g : Matrix (Fin p) (Fin p) ℝ), g.IsSymm → (∀ i, g i i = 0) → ∀ out,
    poissonThetas change g steps = some out →
    out.length = steps.length + 1 ∧
      ∀ t ∈ out, t.IsSymm ∧ (∀ i, t i i = 0) ∧ ∀ i j, t i j = g i j ∨ t i j = 0 := by
  induction steps with
  | nil =>
      intro g hg hd out h
      simp only [poissonThetas, Option.some.injEq] at h
      subst h
      simp [hg, hd]
  | cons rounds rest ih =>
      intro g hg hd out h
      unfold poissonThetas at h
      split at h
      · cases h
      · rename_i t ht
        rw [Option.map_eq_some_iff] at h
        obtain ⟨l, hl, rfl⟩ := h
        obtain ⟨hs', hd', hsub⟩ := C53_poisson_removes change rounds g t hg hd ht
        obtain ⟨h1, h3⟩ := ih (fillDiagZero t) (fillDiagZero_symm t hs') (by simp [fillDiagZero]) l hl
        refine ⟨by simp [h1], ?_⟩
        intro x hx
        rcases List.mem_cons.mp hx with rfl | hx
        · exact ⟨hg, hd, fun i j => Or.inl rfl⟩
        · obtain ⟨a, b, c⟩ := h3 x hx
          refine ⟨a, b, fun i j => ?_⟩
          rcases c i j with h | h
          · simp only [fillDiagZero, Matrix.of_apply] at h
            by_cases hij : i = j
            · right; rw [h, if_pos hij]
            · rw [if_neg hij] at h
              rw [h]; exact hsub i j
          · right; exact h

/-- The responses given to the Ising generator are not used: with responses 0 and 1 a weight -1 appears. -/
theorem C83_responses_false :
    ∃ (steps : List (List (List (Draw 2)))) (out : List (Matrix (Fin 2) (Fin 2) ℝ)) (t : Matrix (Fin 2) (Fin 2) ℝ),
      isingThetas 0 1 1 (0 : Matrix (Fin 2) (Fin 2) ℝ) steps = some out ∧ t ∈ out ∧
      t 0 1 ≠ 0 ∧ t 0 1 ≠ 1 := by
  set e2 : Draw 2 := ⟨0, 1, false⟩ with he2
  have hsy : (0 : Matrix (Fin 2) (Fin 2) ℝ).IsSymm := by ext i j; rfl
  have hloop : updateLoop (isingEdit (-1) 1) [[e2]] (0 : Matrix (Fin 2) (Fin 2) ℝ) =
      some (isingEdit (-1) 1 0 e2) := by
    simp [updateLoop, hasLoop, he2]
  have hret := (C53_assertion_holds (-1) 1 1 [[e2]] 0 _ hsy one_ne_zero).1 hloop
  refine ⟨[[[e2]]], [0, isingEdit (-1) 1 0 e2], isingEdit (-1) 1 0 e2, ?_, by simp, ?_, ?_⟩
  · simp only [isingThetas, hret, Option.map_some]
  · simp [isingEdit, setSym, he2]
  · simp only [isingEdit, setSym, he2]
    norm_num

/-! ### C84: the local Poisson sampler -/

theorem mem_adjPairs (g : Matrix (Fin p) (Fin p) ℝ) (e : Fin p × Fin p) :
    e ∈ adjPairs g ↔ e.1 < e.2 ∧ g e.1 e.2 = 1 := by
  obtain ⟨a, b⟩ := e
  simp only [adjPairs, List.mem_flatMap, List.mem_map, List.mem_filter, List.mem_finRange, true_and,
    decide_eq_true_eq, Prod.mk.injEq]
  constructor
  · rintro ⟨i, j, ⟨h1, h2⟩, rfl, rfl⟩; exact ⟨h1, h2⟩
  · rintro ⟨h1, h2⟩; exact ⟨a, b, ⟨h1, h2⟩, rfl, rfl⟩

theorem count_filter (P : Fin p → Prop) [DecidablePred P] :
    ((List.finRange p).filter fun j => P j).length = ∑ j, if P j then 1 else 0 := by
  rw [Fin.sum_univ_def]
  induction List.finRange p with
  | nil => rfl
  | cons a l ih =>
      by_cases h : P a
      · simp [h, ih]; omega
      · simp [h, ih]

theorem count_pairs (P : Fin p → Fin p → Prop) [∀ i, DecidablePred (P i)] {β : Type} (f : Fin p → Fin p → β) :
    ((List.finRange p).flatMap fun i => ((List.finRange p).filter fun j => P i j).map (f i)).length =
      ∑ i, ∑ j, if P i j then 1 else 0 := by
  rw [List.length_flatMap, Fin.sum_univ_def]
  congr 1
  apply List.map_congr_left
  intro i _
  rw [List.length_map, count_filter]

theorem lengths_agree (lam : ℝ) (hl : lam ≠ 0) (g : Matrix (Fin p) (Fin p) ℝ) (hs : g.IsSymm)
    (h01 : ∀ i j, g i j = 0 ∨ g i j = 1) : (yLambda lam g).length = (adjCols g).length := by
  classical
  unfold yLambda adjCols adjPairs
  rw [List.length_append, List.length_append, List.length_replicate, List.length_map, List.length_map,
    List.length_finRange, count_pairs, count_pairs]
  congr 1
  rw [Finset.sum_comm]
  apply Finset.sum_congr rfl
  intro i _
  apply Finset.sum_congr rfl
  intro j _
  have hij : g j i = g i j := hs.apply i j
  rw [hij]
  have : lam * g i j ≠ 0 ↔ g i j = 1 := by
    rcases h01 i j with h | h <;> simp [h, hl]
  simp only [this]

theorem sum_zipWith_append {β : Type} (f : ℕ → β → ℕ) : ∀ (a : List ℕ) (c : List β) (b : List ℕ) (d : List β),
    a.length = c.length → (List.zipWith f (a ++ b) (c ++ d)).sum =
      (List.zipWith f a c).sum + (List.zipWith f b d).sum
  | [], [], _, _, _ => by simp
  | x :: a, y :: c, b, d, h => by
      have := sum_zipWith_append f a c b d (by simpa using h)
      simp only [List.cons_append, List.zipWith_cons_cons, List.sum_cons, this]
      omega
  | [], _ :: _, _, _, h => by simp at h
  | _ :: _, [], _, _, h => by simp at h

/-- For a symmetric 0/1 graph, a nonzero rate, and any Poisson counts (one per rate), the sample of a variable
is its own count plus the counts of its edges plus its noise; every edge `i < j` of the graph has exactly one
count, shared by its two ends. -/
theorem C84_lpgm (lam : ℝ) (hl : lam ≠ 0) (g : Matrix (Fin p) (Fin p) ℝ) (hs : g.IsSymm)
    (h01 : ∀ i j, g i j = 0 ∨ g i j = 1) (draw : List ℝ → List ℕ)
    (hdraw : ∀ rates, (draw rates).length = rates.length) (noise : Fin p → ℕ) :
    ∃ (own : Fin p → ℕ) (edges : List (Fin p × Fin p)) (counts : List ℕ),
      edges.length = counts.length ∧ (∀ e, e ∈ edges ↔ e.1 < e.2 ∧ g e.1 e.2 = 1) ∧
      draw (yLambda lam g) = List.ofFn own ++ counts ∧
      lpgmRow lam g draw noise = .ok fun i => own i +
        ((edges.zip counts).map fun ec => if i = ec.1.1 ∨ i = ec.1.2 then ec.2 else 0).sum + noise i := by
  have hlen : (draw (yLambda lam g)).length = (adjCols g).length := by
    rw [hdraw, lengths_agree lam hl g hs h01]
  have hcols : (adjCols g).length = p + (adjPairs g).length := by
    simp [adjCols]
  generalize hy : draw (yLambda lam g) = y at hlen
  have hown : (y.take p).length = p := by rw [List.length_take]; omega
  refine ⟨fun i => (y.take p)[i.1]'(by omega), adjPairs g, y.drop p, ?_, mem_adjPairs g, ?_, ?_⟩
  · rw [List.length_drop]; omega
  · have : List.ofFn (fun i : Fin p => (y.take p)[i.1]'(by omega)) = y.take p := by
      apply List.ext_getElem
      · simp [hown]
      · intro k h1 h2; simp
    rw [this, List.take_append_drop]
  · unfold lpgmRow
    simp only [hy]
    rw [if_pos hlen]
    congr 1
    funext i
    congr 1
    have hsplit : y = y.take p ++ y.drop p := (List.take_append_drop p y).symm
    conv_lhs => rw [hsplit]
    unfold adjCols
    rw [sum_zipWith_append _ _ _ _ _ (by simp [hown])]
    congr 1
    · have hof : y.take p = List.ofFn (fun i : Fin p => (y.take p)[i.1]'(by omega)) := by
        apply List.ext_getElem
        · simp [hown]
        · intro k h1 h2; simp
      have hgen : ∀ own : Fin p → ℕ, (List.zipWith (fun v (col : Fin p → ℕ) => v * col i) (List.ofFn own)
          ((List.finRange p).map fun k i => if i = k then 1 else 0)).sum = own i := by
        intro own
        rw [List.ofFn_eq_map, List.zipWith_map, List.zipWith_self, ← Fin.sum_univ_def]
        simp
      conv_lhs => rw [hof]
      rw [hgen]
    · generalize adjPairs g = es
      generalize y.drop p = cs
      induction es generalizing cs with
      | nil => simp
      | cons e es ih =>
          cases cs with
          | nil => simp
          | cons c cs =>
              simp only [List.map_cons, List.zipWith_cons_cons, List.sum_cons, List.zip_cons_cons, ih cs]
              congr 1
              split <;> simp

/-- With rate 0 (no noise-free signal) and at least one edge the sizes do not match and the sampler fails;
the same happens for a graph with an edge weight other than 1. -/
theorem C84_mismatch_false :
    (∃ (g : Matrix (Fin 2) (Fin 2) ℝ), g.IsSymm ∧ (∀ i j, g i j = 0 ∨ g i j = 1) ∧
      ∀ draw : List ℝ → List ℕ, (∀ r, (draw r).length = r.length) →
        ∀ noise, lpgmRow 0 g draw noise = .error .value) ∧
    (∃ (g : Matrix (Fin 2) (Fin 2) ℝ), g.IsSymm ∧ (∀ i, g i i = 0) ∧
      ∀ draw : List ℝ → List ℕ, (∀ r, (draw r).length = r.length) →
        ∀ noise, lpgmRow 1 g draw noise = .error .value) := by
  have hl2 : List.finRange 2 = [0, 1] := rfl
  constructor
  · refine ⟨!![0, 1; 1, 0], by ext i j; fin_cases i <;> fin_cases j <;> rfl,
      by intro i j; fin_cases i <;> fin_cases j <;> simp, fun draw hdraw noise => ?_⟩
    unfold lpgmRow
    simp only
    rw [if_neg]
    rw [hdraw]
    simp [yLambda, adjCols, adjPairs, hl2]
  · refine ⟨!![0, 2; 2, 0], by ext i j; fin_cases i <;> fin_cases j <;> rfl,
      by intro i; fin_cases i <;> rfl, fun draw hdraw noise => ?_⟩
    unfold lpgmRow
    simp only
    rw [if_neg]
    rw [hdraw]
    simp [yLambda, adjCols, adjPairs, hl2]

/-- A 0/1 graph with an edge. -/
example : ∃ g : Matrix (Fin 2) (Fin 2) ℝ, g.IsSymm ∧ (∀ i j, g i j = 0 ∨ g i j = 1) ∧ g 0 1 = 1 :=
  ⟨!![0, 1; 1, 0], by ext i j; fin_cases i <;> fin_cases j <;> rfl,
    by intro i j; fin_cases i <;> fin_cases j <;> simp, rfl⟩

end Verif.Props
