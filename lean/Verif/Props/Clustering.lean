import Verif.Model.Clustering
import Mathlib.Data.List.Count
import Mathlib.Data.List.Dedup
import Mathlib.LinearAlgebra.Matrix.Symmetric
import Mathlib.Algebra.BigOperators.Group.Finset.Basic
import Mathlib.Algebra.Order.BigOperators.Group.Finset
import Mathlib.Algebra.BigOperators.Fin
import Mathlib.Tactic.Linarith
import Mathlib.Tactic.Ring
import Mathlib.Tactic.NormNum
import Mathlib.Tactic.FinCases
import Mathlib.Data.Fintype.Card

/-! Properties of graph clustering (C54, C85). -/

namespace Verif.Props

open Verif.Model Matrix

set_option autoImplicit false
set_option linter.unusedSectionVars false

variable {p : ℕ}

/-! ### C54 -/

theorem binSum_entry (graphs : List (Matrix (Fin p) (Fin p) ℝ)) (i j : Fin p) :
    ∀ acc : Matrix (Fin p) (Fin p) ℤ, ((graphs.map binGraph).foldl (fun acc g => acc + g) acc) i j =
      acc i j + ((graphs.countP fun g => open Classical in decide (g i j ≠ 0) : ℕ) : ℤ) := by
  classical
  induction graphs with
  | nil => intro acc; simp
  | cons g gs ih =>
      intro acc
      rw [List.map_cons, List.foldl_cons, ih, List.countP_cons]
      simp only [Matrix.add_apply, binGraph, Matrix.of_apply]
      by_cases h : g i j ≠ 0
      · simp [h]; ring
      · simp [not_not.mp h]

open Classical in
/-- The representative of a nonempty list of graphs is the 0/1 indicator of the entries that are nonzero in
all of them. -/
theorem C54_representative (graphs : List (Matrix (Fin p) (Fin p) ℝ)) (hne : graphs ≠ []) :
    ∃ R, getRepresentative graphs = .ok R ∧
      ∀ i j, R i j = if ∀ g ∈ graphs, g i j ≠ 0 then 1 else 0 := by
  match graphs, hne with
  | g :: gs, _ =>
      refine ⟨_, rfl, fun i j => ?_⟩
      simp only [Matrix.of_apply]
      rw [binSum_entry]
      have : ((0 : Matrix (Fin p) (Fin p) ℤ) i j + (((g :: gs).countP fun g => decide (g i j ≠ 0) : ℕ) : ℤ) =
          ((g :: gs).length : ℤ)) ↔ ∀ h ∈ g :: gs, h i j ≠ 0 := by
        rw [Matrix.zero_apply, zero_add, Nat.cast_inj, List.countP_eq_length]
        simp
      by_cases h : ∀ h ∈ g :: gs, h i j ≠ 0
      · rw [if_pos h]
        exact if_pos (this.mpr h)
      · rw [if_neg h]
        exact if_neg (fun hc => h (this.mp hc))

/-- An empty list raises. -/
theorem C54_representative_empty :
    getRepresentative ([] : List (Matrix (Fin p) (Fin p) ℝ)) = .error .name := rfl

/-- Entries on whose presence two graphs disagree. -/
noncomputable def disagree (g r : Matrix (Fin p) (Fin p) ℝ) : Finset (Fin p × Fin p) :=
  open Classical in Finset.univ.filter fun ij => ¬ (g ij.1 ij.2 ≠ 0 ↔ r ij.1 ij.2 ≠ 0)

theorem graphDist_eq (g r : Matrix (Fin p) (Fin p) ℝ) : graphDist g r = ((disagree g r).card : ℝ) / 2 := by
  classical
  unfold graphDist
  rw [← add_div, ← Nat.cast_add, ← Finset.card_union_of_disjoint]
  · congr 3
    ext ⟨i, j⟩
    simp only [disagree, Finset.mem_union, Finset.mem_filter, Finset.mem_univ, true_and, Matrix.sub_apply,
      binGraph, Matrix.of_apply]
    by_cases h1 : g i j = 0 <;> by_cases h2 : r i j = 0 <;> simp [h1, h2]
  · rw [Finset.disjoint_filter]
    intro ij _ h1 h2
    rw [h1] at h2
    norm_num at h2

/-- The distance is nonnegative, symmetric, satisfies the triangle inequality, and vanishes exactly for
graphs with the same support. -/
theorem C54_metric (g r s : Matrix (Fin p) (Fin p) ℝ) :
    0 ≤ graphDist g r ∧ graphDist g r = graphDist r g ∧
      graphDist g s ≤ graphDist g r + graphDist r s ∧
      (graphDist g r = 0 ↔ ∀ i j, g i j = 0 ↔ r i j = 0) := by
  classical
  simp only [graphDist_eq]
  refine ⟨by positivity, ?_, ?_, ?_⟩
  · congr 3
    ext ij
    simp only [disagree, Finset.mem_filter, Finset.mem_univ, true_and]
    tauto
  · have h1 : disagree g s ⊆ disagree g r ∪ disagree r s := by
      intro ij
      simp only [disagree, Finset.mem_union, Finset.mem_filter, Finset.mem_univ, true_and]
      tauto
    have h2 := (Finset.card_le_card h1).trans (Finset.card_union_le _ _)
    have h3 : ((disagree g s).card : ℝ) ≤ (disagree g r).card + (disagree r s).card := by exact_mod_cast h2
    linarith
  · rw [div_eq_zero_iff]
    simp only [OfNat.ofNat_ne_zero, or_false, Nat.cast_eq_zero, Finset.card_eq_zero]
    constructor
    · intro h i j
      by_contra hc
      have : (i, j) ∈ disagree g r := by
        simp only [disagree, Finset.mem_filter, Finset.mem_univ, true_and]
        tauto
      rw [h] at this
      simp at this
    · intro h
      ext ⟨i, j⟩
      simp only [disagree, Finset.mem_filter, Finset.mem_univ, true_and, Finset.notMem_empty, iff_false,
        not_not]
      have := h i j
      tauto

open Classical in
/-- For symmetric graphs with zero diagonal the distance is the number of edges on which they disagree. -/
theorem C54_counts_edges (g r : Matrix (Fin p) (Fin p) ℝ) (hg : g.IsSymm) (hr : r.IsSymm)
    (hgd : ∀ i, g i i = 0) (hrd : ∀ i, r i i = 0) :
    graphDist g r = (((Finset.univ : Finset (Fin p × Fin p)).filter fun ij => ij.1 < ij.2 ∧
      ¬ (g ij.1 ij.2 ≠ 0 ↔ r ij.1 ij.2 ≠ 0)).card : ℝ) := by
  rw [graphDist_eq]
  have hsplit : disagree g r = (Finset.univ.filter fun ij : Fin p × Fin p => ij.1 < ij.2 ∧
      ¬ (g ij.1 ij.2 ≠ 0 ↔ r ij.1 ij.2 ≠ 0)) ∪ (Finset.univ.filter fun ij : Fin p × Fin p => ij.2 < ij.1 ∧
      ¬ (g ij.1 ij.2 ≠ 0 ↔ r ij.1 ij.2 ≠ 0)) := by
    ext ⟨i, j⟩
    simp only [disagree, Finset.mem_union, Finset.mem_filter, Finset.mem_univ, true_and]
    rcases lt_trichotomy i j with h | h | h
    · simp [h]
    · subst h; simp [hgd, hrd]
    · simp [h]
  have hswap : (Finset.univ.filter fun ij : Fin p × Fin p => ij.2 < ij.1 ∧
      ¬ (g ij.1 ij.2 ≠ 0 ↔ r ij.1 ij.2 ≠ 0)).card = (Finset.univ.filter fun ij : Fin p × Fin p =>
      ij.1 < ij.2 ∧ ¬ (g ij.1 ij.2 ≠ 0 ↔ r ij.1 ij.2 ≠ 0)).card := by
    apply Finset.card_bij (fun ij _ => (ij.2, ij.1))
    · rintro ⟨i, j⟩ h
      simp only [Finset.mem_filter, Finset.mem_univ, true_and] at h ⊢
      rw [hg.apply i j, hr.apply i j]
      exact h
    · rintro ⟨a, b⟩ _ ⟨c, d⟩ _ h
      simp only [Prod.mk.injEq] at h ⊢
      exact ⟨h.2, h.1⟩
    · rintro ⟨i, j⟩ h
      refine ⟨(j, i), ?_, rfl⟩
      simp only [Finset.mem_filter, Finset.mem_univ, true_and] at h ⊢
      rw [hg.apply i j, hr.apply i j]
      exact h
  rw [hsplit, Finset.card_union_of_disjoint, hswap]
  · push_cast; ring
  · rw [Finset.disjoint_filter]
    rintro ⟨i, j⟩ _ ⟨h1, _⟩ ⟨h2, _⟩
    exact absurd h1 h2.not_gt

/-- Two different graphs at distance one. -/
example : ∃ g r : Matrix (Fin 2) (Fin 2) ℝ, g.IsSymm ∧ r.IsSymm ∧ (∀ i, g i i = 0) ∧ (∀ i, r i i = 0) ∧
    g 0 1 ≠ 0 ∧ r 0 1 = 0 :=
  ⟨!![0, 3; 3, 0], 0, by ext i j; fin_cases i <;> fin_cases j <;> rfl, by ext i j; rfl,
    by intro i; fin_cases i <;> rfl, fun _ => rfl, by norm_num, rfl⟩

/-! ### C85: the k-means kernel -/

theorem graphsWithLabel_ne_nil {α : Type} : ∀ (xs : List α) (labels : List ℕ) (v : ℕ),
    xs.length = labels.length → v ∈ labels → graphsWithLabel xs labels v ≠ []
  | [], [], v, _, h => by simp at h
  | x :: xs, l :: ls, v, hl, h => by
      by_cases hv : l = v
      · simp [graphsWithLabel, hv]
      · have hm : v ∈ ls := by
          rcases List.mem_cons.mp h with h | h
          · exact absurd h.symm hv
          · exact h
        have := graphsWithLabel_ne_nil xs ls v (by simpa using hl) hm
        simpa [graphsWithLabel, hv] using this
  | [], _ :: _, _, h, _ => by simp at h
  | _ :: _, [], _, h, _ => by simp at h

theorem graphsWithLabel_mem {α : Type} (xs : List α) (labels : List ℕ) (v : ℕ) (x : α)
    (h : x ∈ graphsWithLabel xs labels v) : x ∈ xs := by
  simp only [graphsWithLabel, List.mem_map, List.mem_filter] at h
  obtain ⟨⟨a, b⟩, ⟨h1, _⟩, rfl⟩ := h
  exact (List.of_mem_zip h1).1

theorem representatives_ok (graphs : List (Matrix (Fin p) (Fin p) ℝ)) (labels : List ℕ)
    (hl : graphs.length = labels.length) (Q : Matrix (Fin p) (Fin p) ℝ → Prop)
    (hQ : ∀ gs : List (Matrix (Fin p) (Fin p) ℝ), gs ≠ [] → (∀ g ∈ gs, g ∈ graphs) →
      ∀ R, getRepresentative gs = .ok R → Q R) :
    ∀ vs : List ℕ, (∀ v ∈ vs, v ∈ labels) → ∃ rs, representatives graphs labels vs = .ok rs ∧
      rs.length = vs.length ∧ ∀ r ∈ rs, Q r
  | [], _ => ⟨[], rfl, rfl, by simp⟩
  | v :: vs, h => by
      have hne := graphsWithLabel_ne_nil graphs labels v hl (h v (by simp))
      obtain ⟨R, hR, _⟩ := C54_representative _ hne
      have hq := hQ _ hne (fun g hg => graphsWithLabel_mem _ _ _ _ hg) R hR
      obtain ⟨rs, h1, h2, h3⟩ := representatives_ok graphs labels hl Q hQ vs (fun w hw => h w (by simp [hw]))
      refine ⟨R :: rs, ?_, by simp [h2], ?_⟩
      · unfold representatives
        simp only [hR, h1]
      · intro r hr
        rcases List.mem_cons.mp hr with rfl | hr
        · exact hq
        · exact h3 r hr

theorem uniqueLabels_mem (labels : List ℕ) (v : ℕ) : v ∈ uniqueLabels labels ↔ v ∈ labels := by
  simp [uniqueLabels]

/-- The loop keeps any property of the representatives that every representative of a subset of the graphs
has, and returns the kernel of distances to such representatives. -/
theorem kMeansLoop_inv (graphs : List (Matrix (Fin p) (Fin p) ℝ)) (hg : graphs ≠ [])
    (Q : Matrix (Fin p) (Fin p) ℝ → Prop)
    (hQ : ∀ gs : List (Matrix (Fin p) (Fin p) ℝ), gs ≠ [] → (∀ g ∈ gs, g ∈ graphs) →
      ∀ R, getRepresentative gs = .ok R → Q R) :
    ∀ (fuel : ℕ) (repres : List (Matrix (Fin p) (Fin p) ℝ)) (prev : Option (List ℕ))
      (kern : Option (List (List XF))), repres ≠ [] → (∀ r ∈ repres, Q r) →
      (fuel = 0 → ∃ reps, reps ≠ [] ∧ (∀ r ∈ reps, Q r) ∧
        kern = some (kernelOf (computeDistances graphs reps))) →
      ∃ reps, reps ≠ [] ∧ (∀ r ∈ reps, Q r) ∧
        kMeansLoop graphs fuel repres prev kern = .ok (some (kernelOf (computeDistances graphs reps)))
  | 0, repres, prev, kern, _, _, h0 => by
      obtain ⟨reps, h1, h2, h3⟩ := h0 rfl
      exact ⟨reps, h1, h2, by simp [kMeansLoop, h3]⟩
  | fuel + 1, repres, prev, kern, hne, hr, _ => by
      have hlen : graphs.length = ((computeDistances graphs repres).map argminList).length := by
        simp [computeDistances]
      obtain ⟨rs, h1, h2, h3⟩ := representatives_ok graphs _ hlen Q hQ
        (uniqueLabels ((computeDistances graphs repres).map argminList))
        (fun v hv => (uniqueLabels_mem _ v).mp hv)
      have hrs : rs ≠ [] := by
        intro hc
        rw [hc] at h2
        match graphs, hg with
        | g :: gs, _ =>
            have hm : argminList (repres.map fun r => graphDist g r) ∈
                uniqueLabels ((computeDistances (g :: gs) repres).map argminList) := by
              rw [uniqueLabels_mem]; simp [computeDistances]
            rw [List.length_nil, eq_comm, List.length_eq_zero_iff] at h2
            rw [h2] at hm
            simp at hm
      unfold kMeansLoop
      simp only [h1]
      split
      · exact ⟨repres, hne, hr, rfl⟩
      · exact kMeansLoop_inv graphs hg Q hQ fuel rs _ _ hrs h3 (fun _ => ⟨repres, hne, hr, rfl⟩)

/-- For at least one graph, one cluster and one iteration the function returns a square table with one row
and one column per graph, the kernel of the distances to some nonempty list of representatives. -/
theorem C85_returns (graphs start : List (Matrix (Fin p) (Fin p) ℝ)) (hg : graphs ≠ []) (hs : start ≠ [])
    (maxIter : ℕ) (hm : maxIter ≠ 0) :
    ∃ K reps, reps ≠ [] ∧ graphKMeans graphs start maxIter = .ok K ∧
      K = kernelOf (computeDistances graphs reps) ∧ K.length = graphs.length ∧
      ∀ row ∈ K, row.length = graphs.length := by
  obtain ⟨reps, h1, _, h3⟩ := kMeansLoop_inv graphs hg (fun _ => True) (fun _ _ _ _ _ => trivial) maxIter
    start none none hs (fun _ _ => trivial) (fun h => absurd h hm)
  refine ⟨_, reps, h1, ?_, rfl, ?_, ?_⟩
  · unfold graphKMeans; rw [h3]
  · simp [kernelOf, computeDistances]
  · intro row hrow
    simp only [kernelOf, List.mem_map] at hrow
    obtain ⟨a, _, rfl⟩ := hrow
    simp [computeDistances]

/-- With no iterations the function fails. -/
theorem C85_no_iterations (graphs start : List (Matrix (Fin p) (Fin p) ℝ)) :
    graphKMeans graphs start 0 = .error .name := rfl

theorem maxList_zero : ∀ l : List ℝ, (∀ x ∈ l, x = 0) → maxList l = 0
  | [], _ => rfl
  | [x], h => by simp [maxList, h x (by simp)]
  | x :: y :: l, h => by
      unfold maxList
      rw [maxList_zero (y :: l) (fun z hz => h z (by simp [hz])), h x (by simp)]
      simp

theorem xf_fold_nan : ∀ l : List XF, l.foldl XF.add .nan = .nan
  | [] => rfl
  | x :: l => by
      rw [List.foldl_cons]
      have : XF.add .nan x = .nan := by cases x <;> rfl
      rw [this]; exact xf_fold_nan l

theorem similarityRow_zero (l : List ℝ) (h : ∀ x ∈ l, x = 0) : similarityRow l = l.map fun _ => XF.nan := by
  unfold similarityRow
  rw [maxList_zero l h]
  apply List.map_congr_left
  intro x hx
  rw [h x hx]
  simp [XF.sub, XF.div, XF.neg, XF.add]

/-- When all graphs have the same edges the kernel consists of nan only, whatever the number of clusters and
of iterations and whatever the shuffle: the distances are divided by their maximum, 0. -/
theorem C85_identical_false (graphs start : List (Matrix (Fin p) (Fin p) ℝ)) (hg : graphs ≠ [])
    (hs : start ≠ []) (hsub : ∀ r ∈ start, r ∈ graphs)
    (hsame : ∀ g ∈ graphs, ∀ h ∈ graphs, ∀ i j, g i j = 0 ↔ h i j = 0) (maxIter : ℕ) (hm : maxIter ≠ 0) :
    ∃ K, graphKMeans graphs start maxIter = .ok K ∧ ∀ row ∈ K, ∀ x ∈ row, x = XF.nan := by
  classical
  have hQ : ∀ gs : List (Matrix (Fin p) (Fin p) ℝ), gs ≠ [] → (∀ g ∈ gs, g ∈ graphs) →
      ∀ R, getRepresentative gs = .ok R → ∀ g ∈ graphs, ∀ i j, g i j = 0 ↔ R i j = 0 := by
    intro gs hne hmem R hR g hg' i j
    obtain ⟨R', hR', hent⟩ := C54_representative gs hne
    rw [hR'] at hR
    cases hR
    rw [hent i j]
    by_cases h0 : g i j = 0
    · rw [if_neg]
      · simp [h0]
      · intro hall
        match gs, hne with
        | k :: ks, _ =>
            have := hall k (by simp)
            exact this ((hsame g hg' k (hmem k (by simp)) i j).mp h0)
    · rw [if_pos]
      · simp [h0]
      · intro k hk hk0
        exact h0 ((hsame g hg' k (hmem k hk) i j).mpr hk0)
  obtain ⟨reps, h1, h2, h3⟩ := kMeansLoop_inv graphs hg
    (fun r => ∀ g ∈ graphs, ∀ i j, g i j = 0 ↔ r i j = 0) hQ maxIter
    start none none hs (fun r hr g hg' i j => hsame g hg' r (hsub r hr) i j) (fun h => absurd h hm)
  refine ⟨_, by unfold graphKMeans; rw [h3], ?_⟩
  have hz : ∀ g ∈ graphs, ∀ x ∈ reps.map (fun r => graphDist g r), x = 0 := by
    intro g hg' x hx
    rw [List.mem_map] at hx
    obtain ⟨r, hr, rfl⟩ := hx
    exact (C54_metric g r g).2.2.2.mpr (h2 r hr g hg')
  intro row hrow x hx
  simp only [kernelOf, computeDistances, List.mem_map] at hrow
  obtain ⟨a, ⟨a', ⟨g, hga, rfl⟩, rfl⟩, rfl⟩ := hrow
  rw [List.mem_map] at hx
  obtain ⟨b, hb, rfl⟩ := hx
  simp only [List.mem_map] at hb
  obtain ⟨b', ⟨h, hhb, rfl⟩, rfl⟩ := hb
  rw [similarityRow_zero _ (hz g hga), similarityRow_zero _ (hz h hhb)]
  match reps, h1 with
  | r :: rs, _ =>
      unfold xfDot
      simp only [List.map_cons, List.zipWith_cons_cons, List.foldl_cons]
      have : XF.add (.fin 0) (XF.mul .nan .nan) = .nan := rfl
      rw [this, xf_fold_nan]

theorem le_maxList : ∀ (l : List ℝ) (x : ℝ), x ∈ l → x ≤ maxList l
  | [], x, h => by simp at h
  | [y], x, h => by simp at h; simp [maxList, h]
  | y :: z :: l, x, h => by
      unfold maxList
      rcases List.mem_cons.mp h with rfl | h
      · exact le_max_left _ _
      · exact (le_maxList (z :: l) x h).trans (le_max_right _ _)

theorem xfDot_fin : ∀ (a b : List ℝ) (c : ℝ),
    (List.zipWith XF.mul (a.map XF.fin) (b.map XF.fin)).foldl XF.add (.fin c) =
      .fin (c + (List.zipWith (· * ·) a b).sum)
  | [], b, c => by simp
  | x :: a, [], c => by simp
  | x :: a, y :: b, c => by
      simp only [List.map_cons, List.zipWith_cons_cons, List.foldl_cons, List.sum_cons]
      have : XF.add (.fin c) (XF.mul (.fin x) (.fin y)) = .fin (c + x * y) := rfl
      rw [this, xfDot_fin a b]
      congr 1; ring

/-- When every graph is at positive distance from some representative, every kernel entry is the finite dot
product of two vectors of similarities in [0, 1], so it is nonnegative and symmetric in the two graphs.
Missing: graphs that coincide with all the representatives (`C85_identical_false`). -/
theorem C85_finite_partial (graphs reps : List (Matrix (Fin p) (Fin p) ℝ))
    (hpos : ∀ g ∈ graphs, ∃ r ∈ reps, 0 < graphDist g r) :
    ∃ sim : Matrix (Fin p) (Fin p) ℝ → List ℝ,
      (∀ g ∈ graphs, (sim g).length = reps.length ∧ ∀ x ∈ sim g, 0 ≤ x ∧ x ≤ 1) ∧
      kernelOf (computeDistances graphs reps) =
        graphs.map fun g => graphs.map fun h => .fin (List.zipWith (· * ·) (sim g) (sim h)).sum := by
  refine ⟨fun g => (reps.map fun r => graphDist g r).map
    fun x => 1 - x / maxList (reps.map fun r => graphDist g r), ?_, ?_⟩
  · intro g hg
    obtain ⟨r, hr, hr0⟩ := hpos g hg
    have hm : 0 < maxList (reps.map fun r => graphDist g r) :=
      lt_of_lt_of_le hr0 (le_maxList _ _ (List.mem_map.mpr ⟨r, hr, rfl⟩))
    refine ⟨by simp, ?_⟩
    intro x hx
    rw [List.mem_map] at hx
    obtain ⟨d, hd, rfl⟩ := hx
    have h1 := le_maxList _ _ hd
    rw [List.mem_map] at hd
    obtain ⟨r', _, rfl⟩ := hd
    have h0 := (C54_metric g r' g).1
    have h2 : graphDist g r' / maxList (reps.map fun r => graphDist g r) ≤ 1 := (div_le_one hm).mpr h1
    have h3 : 0 ≤ graphDist g r' / maxList (reps.map fun r => graphDist g r) := div_nonneg h0 hm.le
    constructor <;> linarith
  · have hrow : ∀ g ∈ graphs, similarityRow (reps.map fun r => graphDist g r) =
        ((reps.map fun r => graphDist g r).map
          fun x => 1 - x / maxList (reps.map fun r => graphDist g r)).map XF.fin := by
      intro g hg
      obtain ⟨r, hr, hr0⟩ := hpos g hg
      have hm : 0 < maxList (reps.map fun r => graphDist g r) :=
        lt_of_lt_of_le hr0 (le_maxList _ _ (List.mem_map.mpr ⟨r, hr, rfl⟩))
      unfold similarityRow
      generalize reps.map (fun r => graphDist g r) = l at hm ⊢
      rw [List.map_map]
      apply List.map_congr_left
      intro x _
      simp only [XF.div, XF.sub, XF.neg, XF.add, ne_eq, hm.ne', not_false_eq_true, if_true,
        Function.comp_apply]
      congr 1
    unfold kernelOf computeDistances
    simp only [List.map_map]
    apply List.map_congr_left
    intro g hg
    simp only [Function.comp_apply]
    apply List.map_congr_left
    intro h hh
    simp only [Function.comp_apply]
    rw [hrow g hg, hrow h hh]
    unfold xfDot
    rw [xfDot_fin, zero_add]
    simp only [List.map_map]

/-- Hypotheses of the kernel theorems: two equal graphs; two different ones. -/
example : ∃ g r : Matrix (Fin 2) (Fin 2) ℝ, (∀ h ∈ [g, g], ∀ k ∈ [g, g], ∀ i j, h i j = 0 ↔ k i j = 0) ∧
    0 < graphDist g r := by
  refine ⟨!![0, 3; 3, 0], 0, by simp, ?_⟩
  have h := C54_metric (!![0, 3; 3, 0] : Matrix (Fin 2) (Fin 2) ℝ) 0 0
  refine lt_of_le_of_ne h.1 (fun h0 => ?_)
  have := (h.2.2.2.mp h0.symm 0 1).mpr rfl
  norm_num at this

end Verif.Props
