import Mathlib.Probability.Distributions.Gaussian.Real
import Verif.Model.MYNodes
import Verif.Props.GaussMY

/-! Property theorems C219 and C220: edge probabilities and node locations of the Meinshausen-Yuan generators. -/

namespace Verif.Props

open Verif.Model Verif.Lemmas Matrix

set_option autoImplicit false
set_option linter.unusedSectionVars false

variable {p : ℕ}

/-- `l` ranks the nodes by decreasing value. -/
def IsRanking (q : Fin p → ℝ) (l : List (Fin p)) : Prop :=
  l.Perm (List.finRange p) ∧ l.Pairwise fun a b => q b ≤ q a

/-! ### Selection -/

theorem mySelect_eq (i : Fin p) : ∀ (room : ℕ) (l : List (Fin p)),
    mySelect i room l = (l.filter fun k => decide (i ≤ k)).take room
  | 0, l => by rw [mySelect, List.take_zero]
  | _ + 1, [] => by simp [mySelect]
  | room + 1, k :: rest => by
      rw [mySelect]
      by_cases hk : k < i
      · rw [if_pos hk, mySelect_eq i (room + 1) rest, List.filter_cons, if_neg (by simp [hk])]
      · rw [if_neg hk, mySelect_eq i room rest, List.filter_cons, if_pos (by simpa using hk), List.take_succ_cons]

theorem mySelect_sub (i : Fin p) {r s : ℕ} (hrs : r ≤ s) (l : List (Fin p)) {k : Fin p}
    (hk : k ∈ mySelect i r l) : k ∈ mySelect i s l := by
  rw [mySelect_eq] at hk ⊢
  exact List.take_subset_take_left _ hrs hk

theorem mySelect_ge (i : Fin p) {r : ℕ} {l : List (Fin p)} {k : Fin p} (hk : k ∈ mySelect i r l) : i ≤ k := by
  rw [mySelect_eq] at hk
  simpa using (List.mem_filter.mp (List.mem_of_mem_take hk)).2

/-- Trimming keeps an edge. -/
theorem myTrim_edge (shuffle : Fin p → List (Fin p) → List (Fin p)) (hs : ∀ t l, (shuffle t l).Perm l)
    (A : Matrix (Fin p) (Fin p) ℝ) (t : Fin p) (hA : ∃ i j, i ≠ j ∧ A i j ≠ 0) :
    ∃ i j, i ≠ j ∧ myTrim shuffle A t i j ≠ 0 := by
  classical
  obtain ⟨ed, hed⟩ : ∃ ed, ed = shuffle t (rowEdges A t) := ⟨_, rfl⟩
  have hperm : ed.Perm (rowEdges A t) := hed ▸ hs t _
  have hnd : ed.Nodup := hperm.nodup_iff.mpr ((List.nodup_finRange p).filter _)
  by_cases hlen : ed.length ≤ 4
  · obtain ⟨i, j, hij, h0⟩ := hA
    refine ⟨i, j, hij, ?_⟩
    have he : allButLast4 ed = [] := by
      unfold allButLast4
      rw [Nat.sub_eq_zero_of_le hlen, List.take_zero]
    unfold myTrim
    rw [← hed, he, setCross, of_apply, if_neg (by simp)]
    exact h0
  · set D := ed.drop (ed.length - 4) with hD
    have hDl : D.length = 4 := by rw [hD, List.length_drop]; omega
    have hDn : D.Nodup := hnd.sublist (List.drop_sublist _ _)
    obtain ⟨j, hj, hjt⟩ : ∃ j ∈ D, j ≠ t := by
      by_contra hc
      push Not at hc
      have hsub : D.toFinset ⊆ {t} := fun j hj => by
        rw [Finset.mem_singleton]; exact hc j (by simpa using hj)
      have := Finset.card_le_card hsub
      rw [List.toFinset_card_of_nodup hDn, hDl, Finset.card_singleton] at this
      omega
    have hjA : A t j ≠ 0 := by
      have : j ∈ rowEdges A t := hperm.subset (List.mem_of_mem_drop hj)
      simpa [rowEdges] using this
    have hjn : j ∉ allButLast4 ed := by
      have hd := List.disjoint_take_drop hnd (le_refl (ed.length - 4))
      exact fun hc => hd hc hj
    refine ⟨t, j, hjt.symm, ?_⟩
    unfold myTrim
    rw [← hed, setCross, of_apply, if_neg]
    · exact hjA
    · rintro (⟨-, h1⟩ | ⟨h1, -⟩)
      · exact hjn h1
      · exact hjt h1

theorem myRow_keeps (v : ℝ) (order : Fin p → List (Fin p)) (l : List (Fin p)) (A : Matrix (Fin p) (Fin p) ℝ)
    (a b : Fin p) (h : A a b = v) : l.foldl (myRow v order) A a b = v := by
  refine foldl_inv (fun A : Matrix (Fin p) (Fin p) ℝ => A a b = v) _ _ _ h ?_
  intro A i _ hA
  unfold myRow setCross
  rw [of_apply]
  split
  · rfl
  · exact hA

/-- The graph always has an edge. -/
theorem thetaMy_edge (hp : 2 ≤ p) (v : ℝ) (hv : v ≠ 0) (order : Fin p → List (Fin p))
    (ho : ∀ i, (order i).Perm (List.finRange p)) (shuffle : Fin p → List (Fin p) → List (Fin p))
    (hs : ∀ t l, (shuffle t l).Perm l) {theta : Matrix (Fin p) (Fin p) ℝ}
    (hth : thetaMy v order shuffle = some theta) : ∃ i j, i ≠ j ∧ theta i j ≠ 0 := by
  classical
  obtain ⟨n, rfl⟩ : ∃ n, p = n + 2 := ⟨p - 2, by omega⟩
  set th0 : Matrix (Fin (n + 2)) (Fin (n + 2)) ℝ := (List.finRange (n + 2)).foldl (myRow v order) 0 with hth0
  have hsel : mySelect (0 : Fin (n + 2)) 4 (order 0) = (order 0).take 4 := by
    rw [mySelect_eq]
    congr 1
    rw [List.filter_eq_self]
    simp
  have hedge : ∃ i j, i ≠ j ∧ th0 i j ≠ 0 := by
    obtain ⟨j, hj, hj0⟩ : ∃ j ∈ (order 0).take 4, j ≠ 0 := by
      by_contra hc
      push Not at hc
      have hnd : ((order 0).take 4).Nodup :=
        ((ho 0).nodup_iff.mpr (List.nodup_finRange _)).sublist (List.take_sublist _ _)
      have hsub : ((order 0).take 4).toFinset ⊆ {0} := fun j hj => by
        rw [Finset.mem_singleton]; exact hc j (by simpa using hj)
      have := Finset.card_le_card hsub
      rw [List.toFinset_card_of_nodup hnd, List.length_take, (ho 0).length_eq, List.length_finRange,
        Finset.card_singleton] at this
      omega
    refine ⟨0, j, hj0.symm, ?_⟩
    rw [hth0, List.finRange_succ, List.foldl_cons, myRow_keeps v order _ _ 0 j]
    · exact hv
    · have hr : rowCount (0 : Matrix (Fin (n + 2)) (Fin (n + 2)) ℝ) 0 = 0 := by simp [rowCount]
      rw [myRow, hr, Nat.sub_zero, hsel, setCross, of_apply, if_pos (.inl ⟨rfl, hj⟩)]
  unfold thetaMy at hth
  simp only at hth
  rw [← hth0] at hth
  have h1 := foldl_inv (fun A : Matrix (Fin (n + 2)) (Fin (n + 2)) ℝ => ∃ i j, i ≠ j ∧ A i j ≠ 0)
    (myTrim shuffle) ((List.finRange (n + 2)).filter fun t => 4 < rowCount th0 t) th0 hedge
    (fun A t _ hA => myTrim_edge shuffle hs A t hA)
  split at hth
  · obtain ⟨i, j, hij, h2⟩ := h1
    refine ⟨i, j, hij, ?_⟩
    rw [← Option.some.inj hth]
    simpa [fillDiagonal, hij] using h2
  · exact absurd hth (by simp)

/-- An edge between `i` and a later node comes from the first four candidates of `i`. -/
theorem thetaMy_selected (v : ℝ) (order : Fin p → List (Fin p)) (shuffle : Fin p → List (Fin p) → List (Fin p))
    {theta : Matrix (Fin p) (Fin p) ℝ} (hth : thetaMy v order shuffle = some theta) {i j : Fin p} (hij : i < j)
    (h0 : theta i j ≠ 0) : j ∈ mySelect i 4 (order i) := by
  classical
  have h1 := foldl_inv (fun A : Matrix (Fin p) (Fin p) ℝ => A i j ≠ 0 → j ∈ mySelect i 4 (order i))
    (myRow v order) (List.finRange p) 0 (fun h => absurd rfl h) (by
      intro A k _ hA hne
      unfold myRow setCross at hne
      rw [of_apply] at hne
      split at hne
      · rename_i hc
        rcases hc with ⟨e, hm⟩ | ⟨e, hm⟩
        · rw [← e] at hm
          exact mySelect_sub i (by omega) _ hm
        · rw [← e] at hm
          exact absurd (mySelect_ge j hm) (not_le.mpr hij)
      · exact hA hne)
  unfold thetaMy at hth
  simp only at hth
  have h2 := foldl_inv (fun A : Matrix (Fin p) (Fin p) ℝ => A i j ≠ 0 → j ∈ mySelect i 4 (order i))
    (myTrim shuffle) ((List.finRange p).filter fun t => 4 < rowCount
      ((List.finRange p).foldl (myRow v order) 0) t) _ h1 (by
      intro A k _ hA hne
      rcases setCross_zero A k (allButLast4 (shuffle k (rowEdges A k))) i j with e | e
      · exact absurd e hne
      · exact hA (by rw [← e]; exact hne))
  split at hth
  · apply h2
    rw [← Option.some.inj hth] at h0
    simpa [fillDiagonal, hij.ne] using h0
  · exact absurd hth (by simp)

/-! ### C219 -/

theorem nodeProb_pos (loc : Fin p → ℝ × ℝ) (mask : Fin p → Fin p → Bool) (i j : Fin p) :
    0 < nodeProb loc mask i j := by
  unfold nodeProb
  have := Real.pi_pos
  positivity

theorem nodeProb_lt (loc : Fin p → ℝ × ℝ) (mask : Fin p → Fin p → Bool) (i j : Fin p) :
    nodeProb loc mask i j < 0.8 := by
  unfold nodeProb
  have hpi : (0 : ℝ) < 2 * Real.pi := by have := Real.pi_pos; positivity
  have h1 : Real.exp (-(nodeDist loc mask i j * Real.sqrt p) ^ 2 / 2) ≤ 1 :=
    Real.exp_le_one_iff.mpr (by nlinarith [sq_nonneg (nodeDist loc mask i j * Real.sqrt p)])
  have h2 : (2.505 : ℝ) < Real.sqrt (2 * Real.pi) := by
    rw [Real.lt_sqrt (by norm_num)]
    have := Real.pi_gt_d2
    norm_num at this ⊢
    linarith
  have h3 := Real.sqrt_pos.mpr hpi
  rw [← mul_div_assoc, div_lt_iff₀ h3]
  nlinarith

/-- C219, part: a pair is joined because of its probability as long as the earlier of the two has enough
candidates: if at least four nodes from `i` on have a positive entry in the row of `i`, every edge from `i` to a later
node has a positive entry, for every ranking and every shuffle. -/
theorem C219_positive_partial (value : ℝ) (q : Fin p → Fin p → ℝ) (order : Fin p → List (Fin p))
    (ho : ∀ i, IsRanking (q i) (order i)) (shuffle : Fin p → List (Fin p) → List (Fin p))
    {theta : Matrix (Fin p) (Fin p) ℝ} (hth : thetaMy value order shuffle = some theta) (i j : Fin p) (hij : i < j)
    (h0 : theta i j ≠ 0) (hfour : 4 ≤ (Finset.univ.filter fun k => i ≤ k ∧ 0 < q i k).card) : 0 < q i j := by
  classical
  by_contra hq
  rw [not_lt] at hq
  have hj := thetaMy_selected value order shuffle hth hij h0
  rw [mySelect_eq] at hj
  set L := (order i).filter fun k => decide (i ≤ k) with hL
  have hsort : L.Pairwise fun a b => q i b ≤ q i a := (ho i).2.filter _
  rw [← List.take_append_drop 4 L, List.pairwise_append] at hsort
  have hsub : (Finset.univ.filter fun k => i ≤ k ∧ 0 < q i k) ⊆ (L.take 4).toFinset.erase j := by
    intro k hk
    simp only [Finset.mem_filter, Finset.mem_univ, true_and] at hk
    rw [Finset.mem_erase, List.mem_toFinset]
    refine ⟨fun e => absurd hk.2 (by rw [e]; exact not_lt.mpr hq), ?_⟩
    have hkL : k ∈ L := by
      rw [hL, List.mem_filter]
      exact ⟨(ho i).1.mem_iff.mpr (List.mem_finRange k), by simpa using hk.1⟩
    rw [← List.take_append_drop 4 L, List.mem_append] at hkL
    rcases hkL with h | h
    · exact h
    · have := hsort.2.2 j hj k h
      linarith [hk.2]
  have h1 := Finset.card_le_card hsub
  rw [Finset.card_erase_of_mem (List.mem_toFinset.mpr hj)] at h1
  have h2 := (L.take 4).toFinset_card_le
  have h3 := List.length_take_le 4 L
  omega

/-- Distance of two points of the plane. -/
noncomputable def planeDist (a b : ℝ × ℝ) : ℝ := Real.sqrt ((a.1 - b.1) ^ 2 + (a.2 - b.2) ^ 2)

theorem nodeDist_eq (loc : Fin p → ℝ × ℝ) (mask : Fin p → Fin p → Bool) (i j : Fin p) :
    nodeDist loc mask i j = (if mask i j then 1 / 10 else 1) * planeDist (loc i) (loc j) := by
  unfold nodeDist planeDist
  simp only
  split <;> ring

/-- C219: before the thresholds, the probability of a pair is twice the standard Gaussian density at its distance times
the root of the number of nodes, where masked pairs count as ten times nearer. So a pair that is nearer, and masked if
the other one is, has the larger probability; it never reaches `0.8`, even for a node and itself. The entry of a pair
is kept exactly when the threshold does not exceed it. -/
theorem C219_probability (loc : Fin p → ℝ × ℝ) (mask : Fin p → Fin p → Bool) (i j : Fin p) (thr : Fin p → Fin p → ℝ) :
    let prob := 2 * ProbabilityTheory.gaussianPDFReal 0 1
      ((if mask i j then 1 / 10 else 1) * planeDist (loc i) (loc j) * Real.sqrt p)
    computeProbabilities loc mask thr i j = (if thr i j ≤ prob then prob else 0) ∧ 0 < prob ∧ prob < 0.8 ∧
      ∀ k l, planeDist (loc i) (loc j) ≤ planeDist (loc k) (loc l) → (mask k l → mask i j) →
        nodeProb loc mask k l ≤ nodeProb loc mask i j := by
  intro prob
  have hprob : nodeProb loc mask i j = prob := by
    unfold nodeProb
    rw [nodeDist_eq]
    simp only [prob, ProbabilityTheory.gaussianPDFReal, NNReal.coe_one, mul_one, sub_zero]
    rw [div_eq_inv_mul]
  refine ⟨?_, hprob ▸ nodeProb_pos loc mask i j, hprob ▸ nodeProb_lt loc mask i j, fun k l hd hm => ?_⟩
  · unfold computeProbabilities
    rw [hprob]
    by_cases h : thr i j ≤ prob
    · rw [if_neg (not_lt.mpr h), if_pos h]
    · rw [if_pos (not_le.mp h), if_neg h]
  · unfold nodeProb
    have h0 : 0 ≤ planeDist (loc i) (loc j) := Real.sqrt_nonneg _
    have hd0 : 0 ≤ nodeDist loc mask i j := by
      rw [nodeDist_eq]
      split <;> positivity
    have hle : nodeDist loc mask i j ≤ nodeDist loc mask k l := by
      rw [nodeDist_eq, nodeDist_eq]
      by_cases h1 : mask k l = true
      · rw [if_pos h1, if_pos (hm h1)]
        linarith
      · rw [if_neg h1]
        split <;> linarith
    have h1 : nodeDist loc mask i j * Real.sqrt p ≤ nodeDist loc mask k l * Real.sqrt p :=
      mul_le_mul_of_nonneg_right hle (Real.sqrt_nonneg _)
    have h2 : 0 ≤ nodeDist loc mask i j * Real.sqrt p := mul_nonneg hd0 (Real.sqrt_nonneg _)
    gcongr

/-- C219 fails in general: when every threshold is above `0.8`, no pair passes and all entries are zero, but for two
or more nodes the graph still has an edge - wherever the nodes are and however ties are ranked. -/
theorem C219_zero_probability_false (hp : 2 ≤ p) (loc : Fin p → ℝ × ℝ) (mask : Fin p → Fin p → Bool)
    (thr : Fin p → Fin p → ℝ) (hthr : ∀ i j, 0.8 ≤ thr i j) (order : Fin p → List (Fin p))
    (ho : ∀ i, IsRanking (computeProbabilities loc mask thr i) (order i))
    (shuffle : Fin p → List (Fin p) → List (Fin p)) (hs : ∀ t l, (shuffle t l).Perm l) :
    (∀ i j, computeProbabilities loc mask thr i j = 0) ∧
      ∃ theta, thetaMy 0.245 order shuffle = some theta ∧ ∃ i j, i ≠ j ∧ theta i j = 0.245 := by
  refine ⟨fun i j => if_pos ((nodeProb_lt loc mask i j).trans_le (hthr i j)), ?_⟩
  obtain ⟨theta, h1, -, -, h4, -⟩ := C105_precision 0.245 (by norm_num) (by norm_num) order shuffle hs
  obtain ⟨i, j, hij, h0⟩ := thetaMy_edge hp 0.245 (by norm_num) order (fun i => (ho i).1) shuffle hs h1
  exact ⟨theta, h1, i, j, hij, (h4 i j hij).resolve_left h0⟩

/-- Thresholds and rankings meeting the hypotheses. -/
example : (∀ i j : Fin 3, (0.8 : ℝ) ≤ (fun _ _ => 0.9 : Fin 3 → Fin 3 → ℝ) i j) ∧
    ∀ i, IsRanking (computeProbabilities (fun _ => (0, 0)) (fun _ _ => false) (fun _ _ => 0.9) i)
      (List.finRange 3) := by
  refine ⟨fun _ _ => by norm_num, fun i => ⟨List.Perm.refl _, ?_⟩⟩
  have : ∀ k, computeProbabilities (fun _ : Fin 3 => (0, 0)) (fun _ _ => false) (fun _ _ => 0.9) i k = 0 :=
    fun k => if_pos ((nodeProb_lt _ _ i k).trans (by norm_num))
  simp [this, List.pairwise_iff_getElem]

/-- Four positive candidates. -/
example : 4 ≤ (Finset.univ.filter fun k : Fin 6 => (1 : Fin 6) ≤ k ∧ (0 : ℝ) < (fun _ _ => 1 : Fin 6 → Fin 6 → ℝ) 1 k).card := by
  simp only [zero_lt_one, and_true]
  decide

/-! ### C220 -/

/-- C220: between two times no coordinate of a node moves by more than the largest step, and no coordinate is ever
negative. -/
theorem C220_moves (loc : Fin p → ℝ × ℝ) (h0 : ∀ i, 0 ≤ (loc i).1 ∧ 0 ≤ (loc i).2) (perms : ℕ → Fin p → ℝ × ℝ)
    {s : ℝ} (hs : ∀ t i, |(perms t i).1| ≤ s ∧ |(perms t i).2| ≤ s) (t : ℕ) (i : Fin p) :
    (0 ≤ (locationsAt loc perms t i).1 ∧ 0 ≤ (locationsAt loc perms t i).2) ∧
      |(locationsAt loc perms (t + 1) i).1 - (locationsAt loc perms t i).1| ≤ s ∧
      |(locationsAt loc perms (t + 1) i).2 - (locationsAt loc perms t i).2| ≤ s := by
  have hnn : 0 ≤ (locationsAt loc perms t i).1 ∧ 0 ≤ (locationsAt loc perms t i).2 := by
    cases t with
    | zero => exact h0 i
    | succ t => exact ⟨le_max_right _ _, le_max_right _ _⟩
  have key : ∀ x e : ℝ, 0 ≤ x → |e| ≤ s → |max (x + e) 0 - x| ≤ s := by
    intro x e hx he
    rw [abs_le] at he ⊢
    constructor
    · linarith [le_max_left (x + e) 0]
    · have : max (x + e) 0 ≤ x + s := max_le (by linarith) (by linarith)
      linarith
  exact ⟨hnn, key _ _ hnn.1 (hs t i).1, key _ _ hnn.2 (hs t i).2⟩

/-- C220: starting in the unit square, every coordinate at time `t` is at most `1 + 0.03 t`. -/
theorem C220_bound (loc : Fin p → ℝ × ℝ) (h0 : ∀ i, (0 ≤ (loc i).1 ∧ (loc i).1 ≤ 1) ∧ 0 ≤ (loc i).2 ∧ (loc i).2 ≤ 1)
    (perms : ℕ → Fin p → ℝ × ℝ) (hs : ∀ t i, |(perms t i).1| ≤ 0.03 ∧ |(perms t i).2| ≤ 0.03) (t : ℕ) (i : Fin p) :
    (locationsAt loc perms t i).1 ≤ 1 + 0.03 * t ∧ (locationsAt loc perms t i).2 ≤ 1 + 0.03 * t := by
  induction t with
  | zero => simpa [locationsAt] using ⟨(h0 i).1.2, (h0 i).2.2⟩
  | succ t ih =>
      obtain ⟨-, h1, h2⟩ := C220_moves loc (fun i => ⟨(h0 i).1.1, (h0 i).2.1⟩) perms hs t i
      rw [abs_le] at h1 h2
      push_cast
      constructor
      · linarith [ih.1, h1.2]
      · linarith [ih.2, h2.2]

/-- C220 fails for the upper and right sides of the unit square: only negative coordinates are cut off, and the bound
is attained: a node that starts in the corner and draws the largest steps is at `1 + 0.03 t`. -/
theorem C220_leaves_square_false (t : ℕ) (i : Fin p) :
    locationsAt (fun _ : Fin p => ((1 : ℝ), (1 : ℝ))) (fun _ _ => (0.03, 0.03)) t i =
      (1 + 0.03 * (t : ℝ), 1 + 0.03 * (t : ℝ)) := by
  induction t with
  | zero => simp [locationsAt]
  | succ t ih =>
      rw [locationsAt, permuteLocations, ih]
      have : max (1 + 0.03 * (t : ℝ) + 0.03) 0 = 1 + 0.03 * ((t + 1 : ℕ) : ℝ) := by
        rw [max_eq_left (by positivity)]
        push_cast
        ring
      simp only [this]

/-- A start in the unit square and small steps. -/
example : ∃ (loc : Fin 2 → ℝ × ℝ) (perms : ℕ → Fin 2 → ℝ × ℝ),
    (∀ i, (0 ≤ (loc i).1 ∧ (loc i).1 ≤ 1) ∧ 0 ≤ (loc i).2 ∧ (loc i).2 ≤ 1) ∧
    ∀ t i, |(perms t i).1| ≤ 0.03 ∧ |(perms t i).2| ≤ 0.03 :=
  ⟨fun _ => (0.5, 1), fun _ _ => (-0.03, 0.02), fun _ => by norm_num, fun _ _ =>
    ⟨by norm_num [abs_of_neg], by norm_num [abs_of_pos]⟩⟩

end Verif.Props
