import Verif.Model.MultiClass
import Verif.Props.Datasets
import Mathlib.Data.List.OfFn

/-! Property theorems C180: the data of multi-class problems (regain/datasets/multi_class.py). -/

namespace Verif.Props

open Verif.Model

set_option autoImplicit false

variable {n p : ℕ}

/-- Rows of equal blocks. -/
theorem flatMap_block {α β : Type*} {f : α → List β} {n : ℕ} (hf : ∀ a, (f a).length = n) (l : List α) :
    (l.flatMap f).length = l.length * n ∧
      ∀ c i (a : α), l[c]? = some a → i < n → (l.flatMap f)[c * n + i]? = (f a)[i]? := by
  induction l with
  | nil => exact ⟨by simp, fun c i a h => by simp at h⟩
  | cons x l ih =>
    obtain ⟨h1, h2⟩ := ih
    refine ⟨?_, fun c i a h hi => ?_⟩
    · rw [List.flatMap_cons, List.length_append, hf, h1, List.length_cons]; ring
    · rw [List.flatMap_cons]
      cases c with
      | zero =>
        rw [List.getElem?_cons_zero, Option.some_inj] at h
        subst h
        rw [zero_mul, zero_add, List.getElem?_append_left (by rw [hf]; exact hi)]
      | succ c =>
        rw [List.getElem?_cons_succ] at h
        have hlen : (f x).length ≤ (c + 1) * n + i := by rw [hf]; nlinarith
        rw [List.getElem?_append_right hlen, hf]
        have e : (c + 1) * n + i - n = c * n + i := by
          rw [add_mul, one_mul]; omega
        rw [e]
        exact h2 c i a h hi

theorem vstackRows_spec (data : List (Fin n → Fin p → ℝ)) :
    (vstackRows data).length = data.length * n ∧
      ∀ c (i : Fin n) d, data[c]? = some d → (vstackRows data)[c * n + i]? = some (d i) := by
  obtain ⟨h1, h2⟩ := flatMap_block (f := fun d : Fin n → Fin p → ℝ => List.ofFn d) (n := n) (fun d => by simp) data
  refine ⟨h1, fun c i d h => ?_⟩
  show (data.flatMap fun d => List.ofFn d)[c * n + i]? = _
  rw [h2 c i d h i.isLt]
  simp

theorem repeatLabels_spec (nClasses n : ℕ) :
    (repeatLabels nClasses n).length = nClasses * n ∧
      ∀ c i, c < nClasses → i < n → (repeatLabels nClasses n)[c * n + i]? = some c := by
  obtain ⟨h1, h2⟩ := flatMap_block (f := fun c : ℕ => List.replicate n c) (n := n) (fun c => by simp)
    (List.range nClasses)
  refine ⟨by rw [List.length_range] at h1; exact h1, fun c i hc hi => ?_⟩
  show ((List.range nClasses).flatMap fun c => List.replicate n c)[c * n + i]? = _
  rw [h2 c i c (by rw [List.getElem?_range hc]) hi]
  simp [hi]

/-- **C180** rows and labels belong together: with one network per class, `X` and `y` have
`n_classes * n_samples` entries, and row `c * n_samples + i` is sample `i` of class `c` with label `c`. -/
theorem C180_rows (nClasses : ℕ) (data : List (Fin n → Fin p → ℝ)) (nets : List (Matrix (Fin p) (Fin p) ℝ))
    (hd : data.length = nClasses) {r : ClassBunch n p} (h : classBunch nClasses data nets = .ok r) :
    r.data = data ∧ r.thetas = nets ∧ r.X.length = nClasses * n ∧ r.y.length = nClasses * n ∧
      ∀ c (i : Fin n) d, data[c]? = some d →
        r.X[c * n + i]? = some (d i) ∧ r.y[c * n + i]? = some c := by
  unfold classBunch at h
  split_ifs at h
  cases h
  obtain ⟨h1, h2⟩ := vstackRows_spec data
  obtain ⟨h3, h4⟩ := repeatLabels_spec nClasses n
  refine ⟨rfl, rfl, by rw [← hd]; exact h1, h3, fun c i d hc => ⟨h2 c i d hc, h4 c i ?_ i.isLt⟩⟩
  rw [← hd]
  exact (List.getElem?_eq_some_iff.mp hc).1

theorem mapM_some_length {α β : Type*} {f : α → Option β} {l : List α} {l' : List β}
    (h : l.mapM f = some l') : l'.length = l.length ∧ ∀ (c : ℕ) (a : α), l[c]? = some a → ∃ b, l'[c]? = some b ∧ f a = some b := by
  induction l generalizing l' with
  | nil =>
    simp at h
    subst h
    exact ⟨rfl, fun c a h => by simp at h⟩
  | cons x l ih =>
    rw [List.mapM_cons] at h
    cases hx : f x with
    | none => rw [hx] at h; exact absurd h (by simp)
    | some y =>
      rw [hx] at h
      cases hl : l.mapM f with
      | none => rw [hl] at h; exact absurd h (by simp)
      | some ys =>
        rw [hl] at h
        obtain rfl : l' = y :: ys := by simpa using h.symm
        obtain ⟨h1, h2⟩ := ih hl
        refine ⟨by simp [h1], fun c a hc => ?_⟩
        cases c with
        | zero =>
          simp only [List.getElem?_cons_zero, Option.some.injEq] at hc
          subst hc
          exact ⟨y, by simp, hx⟩
        | succ c =>
          simp only [List.getElem?_cons_succ] at hc ⊢
          exact h2 c a hc

/-- **C180** Gaussian classes: every sample of class `c` was drawn with the inverse of the network reported for
class `c`. -/
theorem C180_gaussian (inv : Matrix (Fin p) (Fin p) ℝ → Option (Matrix (Fin p) (Fin p) ℝ))
    (draw : ℕ → Matrix (Fin p) (Fin p) ℝ → Fin n → Fin p → ℝ) (nets : List (Matrix (Fin p) (Fin p) ℝ))
    {r : ClassBunch n p} (h : gaussianClasses inv draw nets.length nets = .ok r) :
    r.thetas = nets ∧ r.networks = nets ∧ r.X.length = r.y.length ∧ ∀ c t, nets[c]? = some t →
      ∃ s, inv t = some s ∧ ∀ i : Fin n, r.X[c * n + i]? = some (draw c s i) ∧ r.y[c * n + i]? = some c := by
  unfold gaussianClasses at h
  cases hm : nets.mapM inv with
  | none => rw [hm] at h; cases h
  | some sigmas =>
    rw [hm] at h
    obtain ⟨hlen, hget⟩ := mapM_some_length hm
    obtain ⟨-, h2, h3, h4, h5⟩ := C180_rows nets.length _ nets (by rw [List.length_mapIdx, hlen]) h
    have hn : r.networks = nets := by
      simp only [classBunch] at h
      split_ifs at h
      cases h
      rfl
    refine ⟨h2, hn, by rw [h3, h4], fun c t hc => ?_⟩
    obtain ⟨s, hs1, hs2⟩ := hget c t hc
    refine ⟨s, hs2, fun i => ?_⟩
    exact h5 c i (draw c s) (by rw [List.getElem?_mapIdx, hs1]; rfl)

/-- **C180** Ising classes: every sample of class `c` was drawn from the network reported for class `c`. -/
theorem C180_ising (draw : ℕ → Matrix (Fin p) (Fin p) ℝ → Fin n → Fin p → ℝ)
    (nets : List (Matrix (Fin p) (Fin p) ℝ)) {r : ClassBunch n p}
    (h : isingClasses draw nets.length nets = .ok r) :
    r.X.length = r.y.length ∧ ∀ c t, r.thetas[c]? = some t →
      ∀ i : Fin n, r.X[c * n + i]? = some (draw c t i) ∧ r.y[c * n + i]? = some c := by
  unfold isingClasses at h
  split_ifs at h
  obtain ⟨-, h2, h3, h4, h5⟩ := C180_rows nets.length _ _ (by rw [List.length_mapIdx, List.length_map]) h
  refine ⟨by rw [h3, h4], fun c t hc i => ?_⟩
  rw [h2] at hc
  exact h5 c i (draw c t) (by rw [List.getElem?_mapIdx, hc]; rfl)

/-- **C180 is false for Ising classes**: neither the reported networks nor the ones in the dictionary given to
`sample` are the given ones: the sampler sets their diagonals to zero in place. In particular the unit
diagonals written by the generator are lost. -/
theorem C180_ising_diagonal_false (draw : ℕ → Matrix (Fin p) (Fin p) ℝ → Fin n → Fin p → ℝ)
    (nets : List (Matrix (Fin p) (Fin p) ℝ)) (nClasses : ℕ) {r : ClassBunch n p}
    (h : isingClasses draw nClasses nets = .ok r) :
    r.thetas = nets.map fillDiagZero ∧ r.networks = nets.map fillDiagZero ∧
      (∀ t ∈ r.thetas, ∀ i, t i i = 0) ∧
      ((∃ t ∈ nets, ∃ i, t i i ≠ 0) → r.thetas ≠ nets ∧ r.networks ≠ nets) := by
  unfold isingClasses at h
  split_ifs at h
  simp only [classBunch] at h
  split_ifs at h
  cases h
  have hz : ∀ t ∈ nets.map fillDiagZero, ∀ i, t i i = 0 := by
    intro t ht i
    obtain ⟨s, -, rfl⟩ := List.mem_map.mp ht
    simp [fillDiagZero]
  refine ⟨rfl, rfl, hz, fun ⟨t, ht, i, hi⟩ => ⟨fun e => ?_, fun e => ?_⟩⟩ <;>
  · simp only at e
    rw [← e] at ht
    exact hi (hz t ht i)

/-- **C180 is false for the generated Ising data**: whatever the draws, on at least one variable every network
the generator makes has a unit diagonal and every network returned with the data has a zero one. -/
theorem C180_generated_false (draw : ℕ → Matrix (Fin (p + 1)) (Fin (p + 1)) ℝ → Fin n → Fin (p + 1) → ℝ)
    (nClasses : ℕ) (B : Matrix (Fin (p + 1)) (Fin (p + 1)) ℕ) (coins : List (List ℕ × List ℕ))
    (A : Matrix (Fin (p + 1)) (Fin (p + 1)) ℝ) {r : ClassBunch n (p + 1)}
    {bs : List (Matrix (Fin (p + 1)) (Fin (p + 1)) ℕ)}
    (h : makeMulticlassIsing draw nClasses B coins A = .ok (r, bs)) :
    (∀ b ∈ bs, ∀ i, isingNet A b i i = 1) ∧ (∀ t ∈ r.thetas, ∀ i, t i i = 0) ∧ r.thetas.length = bs.length ∧
      r.thetas ≠ bs.map (isingNet A) := by
  have h1 : ∀ b : Matrix (Fin (p + 1)) (Fin (p + 1)) ℕ, ∀ i, isingNet A b i i = 1 := by
    intro b i; simp [isingNet]
  unfold makeMulticlassIsing at h
  cases hb : binaries B (coins.take (nClasses - 1)) with
  | error e => rw [hb] at h; cases h
  | ok bs' =>
    rw [hb] at h
    simp only at h
    cases hi : isingClasses draw nClasses (bs'.map (isingNet A)) with
    | error e => rw [hi] at h; cases h
    | ok r' =>
      rw [hi] at h
      cases h
      obtain ⟨h2, -, h3, h4⟩ := C180_ising_diagonal_false draw _ nClasses hi
      have hne : ∃ b l, bs = b :: l := by
        unfold binaries at hb
        split at hb
        · cases hb
        · cases hb; exact ⟨_, _, rfl⟩
      obtain ⟨b, l, rfl⟩ := hne
      refine ⟨fun b _ => h1 b, h3, by rw [h2]; simp, (h4 ⟨isingNet A b, by simp, 0, ?_⟩).1⟩
      rw [h1]
      exact one_ne_zero

/-- **C180 is false without classes**: `n_classes=0` still produces the rows of one network, without labels. -/
theorem C180_no_classes_false (draw : ℕ → Matrix (Fin p) (Fin p) ℝ → Fin n → Fin p → ℝ)
    (B : Matrix (Fin p) (Fin p) ℕ) (coins : List (List ℕ × List ℕ)) (A : Matrix (Fin p) (Fin p) ℝ)
    {r : ClassBunch n p} {bs : List (Matrix (Fin p) (Fin p) ℕ)}
    (h : makeMulticlassIsing draw 0 B coins A = .ok (r, bs)) : r.X.length = n ∧ r.y = [] := by
  unfold makeMulticlassIsing at h
  simp only [Nat.zero_sub, List.take_zero, binaries, classesFrom] at h
  cases hi : isingClasses draw 0 ([B].map (isingNet A)) with
  | error e => rw [hi] at h; cases h
  | ok r' =>
    rw [hi] at h
    cases h
    unfold isingClasses at hi
    split_ifs at hi
    simp only [classBunch] at hi
    split_ifs at hi
    cases hi
    refine ⟨?_, rfl⟩
    simp only
    rw [(vstackRows_spec _).1]
    simp

/-- C180: `sample` refuses the Ising networks with an AssertionError exactly when one of them is not symmetric. -/
theorem C180_ising_refuses (draw : ℕ → Matrix (Fin p) (Fin p) ℝ → Fin n → Fin p → ℝ) (nClasses : ℕ)
    (nets : List (Matrix (Fin p) (Fin p) ℝ)) :
    isingClasses draw nClasses nets = .error .assertion ↔ ∃ t ∈ nets, ¬ t.IsSymm := by
  have hs : ∀ t : Matrix (Fin p) (Fin p) ℝ, ¬ t.IsSymm ↔ t ≠ t.transpose := fun t => by
    rw [Matrix.IsSymm, ne_comm]
  unfold isingClasses
  split_ifs with h1 h2
  · simp only [true_iff]
    obtain ⟨t, ht, h⟩ := List.any_eq_true.mp h1
    exact ⟨t, ht, (hs t).mpr (by simpa using h)⟩
  · simp only [reduceCtorEq, Except.error.injEq, false_iff]
    rintro ⟨t, ht, h⟩
    exact h1 (List.any_eq_true.mpr ⟨t, ht, by simpa using (hs t).mp h⟩)
  · have hne : ∀ d, (classBunch (n := n) nClasses d (nets.map fillDiagZero)) ≠ .error .assertion := by
      intro d
      unfold classBunch
      split_ifs <;> simp
    simp only [hne, false_iff]
    rintro ⟨t, ht, h⟩
    exact h1 (List.any_eq_true.mpr ⟨t, ht, by simpa using (hs t).mp h⟩)

/-- The Ising network of a symmetric graph is symmetric. -/
theorem isingNet_symm (A : Matrix (Fin p) (Fin p) ℝ) {b : Matrix (Fin p) (Fin p) ℕ} (hb : b.IsSymm) :
    (isingNet A b).IsSymm := by
  ext i j
  rw [Matrix.transpose_apply]
  unfold isingNet
  simp only [Matrix.of_apply]
  rw [hb.apply i j, add_comm (A j i - 0.5)]
  by_cases h : i = j
  · subst h; rfl
  · rw [if_neg h, if_neg (Ne.symm h)]

/-- C180: the networks the generator makes for its classes are always accepted by the sampler: for a symmetric 0/1
graph, once the graphs of the classes exist, the data exist. -/
theorem C180_generated_accepted (draw : ℕ → Matrix (Fin p) (Fin p) ℝ → Fin n → Fin p → ℝ) (nClasses : ℕ) (hn : n ≠ 0)
    (B : Matrix (Fin p) (Fin p) ℕ) (hs : B.IsSymm) (h01 : ∀ i j, B i j ≤ 1)
    (coins : List (List ℕ × List ℕ)) (hc : ∀ c ∈ coins, (∀ a ∈ c.1, a ≤ 1) ∧ ∀ a ∈ c.2, a ≤ 1)
    (A : Matrix (Fin p) (Fin p) ℝ) {bs : List (Matrix (Fin p) (Fin p) ℕ)}
    (hb : binaries B (coins.take (nClasses - 1)) = .ok bs) :
    ∃ r, makeMulticlassIsing draw nClasses B coins A = .ok (r, bs) := by
  have hsym := (C116_classes_partial B hs h01 (coins.take (nClasses - 1))
    (fun c hcc => hc c (List.mem_of_mem_take hcc)) bs hb)
  have hne : bs ≠ [] := by
    intro h
    have := hsym.1
    rw [h] at this
    simp at this
  unfold makeMulticlassIsing
  rw [hb]
  simp only
  have hacc : ∀ t ∈ bs.map (isingNet A), t = t.transpose := by
    intro t ht
    obtain ⟨b, hbm, rfl⟩ := List.mem_map.mp ht
    exact (isingNet_symm A (hsym.2 b hbm).1).symm
  unfold isingClasses
  rw [if_neg (by
    intro h
    obtain ⟨t, ht, h⟩ := List.any_eq_true.mp h
    exact absurd (hacc t ht) (by simpa using h)), if_neg (by tauto)]
  unfold classBunch
  rw [if_neg (by
    intro h
    apply hne
    simpa using congrArg List.length h)]
  exact ⟨_, rfl⟩

/-- Two classes on two variables with two samples each. -/
example : ∃ (nets : List (Matrix (Fin 2) (Fin 2) ℝ)) (r : ClassBunch 2 2),
    isingClasses (fun c _ _ _ => (c : ℝ)) 2 nets = .ok r ∧ r.y = [0, 0, 1, 1] ∧
      r.X = [fun _ => 0, fun _ => 0, fun _ => 1, fun _ => 1] ∧ ∃ t ∈ nets, ∃ i, t i i ≠ 0 := by
  have h : ∃ r : ClassBunch 2 2, isingClasses (fun c _ _ _ => (c : ℝ)) 2 [1, 1] = .ok r ∧ r.y = [0, 0, 1, 1] ∧
      r.X = [fun _ => 0, fun _ => 0, fun _ => 1, fun _ => 1] := by
    unfold isingClasses
    rw [if_neg (by simp), if_neg (by simp)]
    unfold classBunch
    rw [if_neg (by simp)]
    refine ⟨_, rfl, rfl, ?_⟩
    simp [vstackRows, List.ofFn_succ]
  obtain ⟨r, h⟩ := h
  exact ⟨[1, 1], r, h.1, h.2.1, h.2.2, 1, by simp, 0, by simp⟩

end Verif.Props
