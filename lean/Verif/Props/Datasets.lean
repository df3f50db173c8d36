import Verif.Props.Kernels
import Verif.Model.Datasets

/-! Property theorems C113 (make_dataset) and C116 (multi-class data). -/

namespace Verif.Props

open Verif.Model Verif.Lemmas Matrix

set_option autoImplicit false
set_option linter.unusedSectionVars false

/-! ### C113 -/

section Base

variable {M V : Type*} {n p : ℕ}

theorem flatMap_ofFn_length {α : Type*} (l : List (Fin n → α)) : (l.flatMap List.ofFn).length = l.length * n := by
  induction l with
  | nil => simp
  | cons x xs ih => rw [List.flatMap_cons, List.length_append, ih, List.length_ofFn, List.length_cons]; ring

theorem flatMap_ofFn_get {α : Type*} (l : List (Fin n → α)) (t : ℕ) (s : Fin n) :
    (l.flatMap List.ofFn)[t * n + s]? = (l[t]?).map fun d => d s := by
  induction l generalizing t with
  | nil => simp
  | cons x xs ih =>
    rw [List.flatMap_cons]
    cases t with
    | zero =>
      rw [List.getElem?_append_left (by simp), zero_mul, zero_add]
      simp
    | succ t =>
      rw [List.getElem?_append_right (by rw [List.length_ofFn, Nat.succ_mul]; omega), List.length_ofFn,
        List.getElem?_cons_succ, ← ih]
      congr 1
      rw [Nat.succ_mul]; omega

/-- The layout of a data set: `k` times with `n` samples each; sample `s` of time `t` is row `t * n + s` of `X`, where
`y` is `t`, and it is `data[t][s]` (`data[s][:, t]` with the time on the last axis). -/
def LayoutOk (b : Bundle M n p) (last : Bool) (samples : List (Fin n → Fin p → ℝ)) : Prop :=
  b.X.length = samples.length * n ∧ b.y.length = samples.length * n ∧
  (∀ t d, samples[t]? = some d → ∀ s : Fin n, b.X[t * n + s]? = some (d s) ∧ b.y[t * n + s]? = some t) ∧
  (last = false → b.data = .inl samples) ∧
  (last = true → ∃ D, b.data = .inr D ∧ ∀ s j, (D s j).length = samples.length ∧
    ∀ (t : ℕ) d, samples[t]? = some d → (D s j)[t]? = some (d s j))

theorem packData_layout (last : Bool) (samples : List (Fin n → Fin p → ℝ)) (thetas obs ells : List M) :
    LayoutOk (packData last samples thetas obs ells) last samples := by
  refine ⟨flatMap_ofFn_length _, by simp [packData, npRepeat_length], fun t d h s => ⟨?_, ?_⟩, ?_, ?_⟩
  · change (samples.flatMap List.ofFn)[t * n + s]? = _
    rw [flatMap_ofFn_get, h]
    rfl
  · have hn : 0 < n := s.pos
    change (npRepeat (List.range samples.length) n)[t * n + s]? = _
    rw [npRepeat_getElem? _ hn]
    have e : (t * n + s) / n = t := by
      rw [Nat.add_comm, Nat.add_mul_div_right _ _ hn, Nat.div_eq_of_lt s.2, zero_add]
    have ht : t < samples.length := by
      by_contra hc
      rw [List.getElem?_eq_none (by omega)] at h
      cases h
    rw [e, List.getElem?_range ht]
  · rintro rfl
    rfl
  · rintro rfl
    refine ⟨_, rfl, fun s j => ⟨by simp, fun t d h => ?_⟩⟩
    rw [List.getElem?_map, h]
    rfl

theorem sampleAll_spec (inv : M → Option M) (draw : ℕ → M → Fin n → Fin p → ℝ) :
    ∀ (l : List M) (t0 : ℕ) (s : List (Fin n → Fin p → ℝ)), sampleAll inv draw t0 l = .ok s →
      s.length = l.length ∧ ∀ (t : ℕ) A, l[t]? = some A → ∃ S, inv A = some S ∧ s[t]? = some (draw (t0 + t) S) := by
  intro l
  induction l with
  | nil => intro t0 s h; cases h; simp
  | cons A l ih =>
    intro t0 s h
    rw [sampleAll] at h
    cases hi : inv A with
    | none => rw [hi] at h; cases h
    | some S =>
      rw [hi] at h
      cases hr : sampleAll inv draw (t0 + 1) l with
      | error e => simp only [hr] at h; cases h
      | ok r =>
        simp only [hr] at h
        cases h
        obtain ⟨h1, h2⟩ := ih _ _ hr
        refine ⟨by simp [h1], fun t B hB => ?_⟩
        cases t with
        | zero =>
          rw [List.getElem?_cons_zero] at hB
          cases hB
          exact ⟨S, hi, rfl⟩
        | succ t =>
          rw [List.getElem?_cons_succ] at hB
          obtain ⟨S', h3, h4⟩ := h2 t B hB
          refine ⟨S', h3, ?_⟩
          rw [List.getElem?_cons_succ, h4]
          congr 2
          omega

theorem unpackSample_spec (inv : M → Option M) (draw : ℕ → M → Fin n → Fin p → ℝ) (last : Bool) (vs : List (List M))
    (b : Bundle M n p) (h : unpackSample inv draw last vs = .ok b) :
    ∃ samples, vs = [b.thetas, b.thetasObs, b.ells] ∧ LayoutOk b last samples ∧
      samples.length = b.thetasObs.length ∧
      ∀ (t : ℕ) A, b.thetasObs[t]? = some A → ∃ S, inv A = some S ∧ samples[t]? = some (draw t S) := by
  match vs, h with
  | [a, o, e], h =>
    rw [unpackSample] at h
    cases hr : sampleAll inv draw 0 o with
    | error e' => rw [hr] at h; cases h
    | ok s =>
      rw [hr] at h
      cases h
      obtain ⟨h1, h2⟩ := sampleAll_spec inv draw o 0 s hr
      refine ⟨s, rfl, packData_layout _ _ _ _ _, h1, fun t A hA => ?_⟩
      obtain ⟨S, h3, h4⟩ := h2 t A hA
      exact ⟨S, h3, by rw [h4, zero_add]⟩
  | [], h => cases h
  | [_], h => cases h
  | [_, _], h => cases h
  | _ :: _ :: _ :: _ :: _, h => cases h

variable (inv : M → Option M) (draw : ℕ → M → Fin n → Fin p → ℝ)
  (run : GenFn → Except DataErr (List (List M))) (isingGen poissonGen : V → List M) (two three : V)

/-- C113 (data): whenever `make_dataset` returns with the Gaussian distribution, the samples of time `t` were drawn with
the inverse of `thetas_observed[t]` as covariance, `X` stacks the times in order, `y` is the time of each row and `data`
has the time on the axis asked for. -/
theorem C113_layout_partial (a : DArgs V M) (b : Bundle M n p) (hd : a.distribution = "gaussian")
    (h : makeDataset inv draw run isingGen poissonGen two three a = .ok b) :
    ∃ samples, LayoutOk b a.last samples ∧ samples.length = b.thetasObs.length ∧
      ∀ (t : ℕ) A, b.thetasObs[t]? = some A → ∃ S, inv A = some S ∧ samples[t]? = some (draw t S) := by
  rw [makeDataset, if_pos hd] at h
  have key : ∀ vs, unpackSample inv draw a.last vs = .ok b → ∃ samples, LayoutOk b a.last samples ∧
      samples.length = b.thetasObs.length ∧
      ∀ (t : ℕ) A, b.thetasObs[t]? = some A → ∃ S, inv A = some S ∧ samples[t]? = some (draw t S) := by
    intro vs hv
    obtain ⟨s, _, h2⟩ := unpackSample_spec inv draw _ vs b hv
    exact ⟨s, h2⟩
  unfold gaussianCase at h
  match hm : a.mode, h with
  | some (.inr f), h =>
    simp only at h
    split at h
    · exact key _ h
    · cases h
  | some (.inl s), h =>
    simp only at h
    cases ht : modeTable s with
    | none => rw [ht] at h; cases h
    | some f =>
      rw [ht] at h
      cases hr : run f with
      | error e => simp only [hr] at h; cases h
      | ok vs =>
        simp only [hr] at h
        split at h
        · split at h <;> cases h
        · exact key _ h
  | none, h =>
    simp only at h
    split at h
    · cases hr : run .covariance with
      | error e => simp only [hr] at h; cases h
      | ok vs => simp only [hr] at h; exact key _ h
    · cases h

/-- Non-vacuity for C113: two times, two samples of one variable, a user-defined generator. -/
example : ∃ b, makeDataset (n := 2) (p := 1) (M := ℕ) (V := ℕ) some (fun t S s _ => (100 * t + 10 * S + s : ℕ))
      (fun _ => .error .value) (fun _ => []) (fun _ => []) 2 3
      ⟨some (.inr ⟨none, [[1, 2], [3, 4], [0, 0]]⟩), false, 2, "gaussian", [], fun _ => none⟩ = .ok b ∧
    b.y = [0, 0, 1, 1] := by
  refine ⟨packData false [fun s _ => ((100 * 0 + 10 * 3 + s : ℕ) : ℝ), fun s _ => ((100 * 1 + 10 * 4 + s : ℕ) : ℝ)]
    [1, 2] [3, 4] [0, 0], ?_, rfl⟩
  rw [makeDataset, if_pos (by decide)]
  rfl

/-- C113 (dispatch): an unknown distribution, or a string that is not one of the eleven modes, raises ValueError; any
additional keyword raises TypeError when no mode is given, and so does `responses` or an unknown keyword with the Ising
distribution, which otherwise packs the generated graphs. -/
theorem C113_dispatch_partial (a : DArgs V M) :
    ((a.distribution ∉ ["gaussian", "ising", "poisson"]) →
      makeDataset inv draw run isingGen poissonGen two three a = .error .value) ∧
    (a.distribution = "gaussian" → ∀ s, a.mode = some (.inl s) →
      s ∉ ["my", "mys", "sin", "fixed_sparsity", "sincos", "gp", "fede", "sklearn", "ma", "mak", "ticc"] →
      makeDataset inv draw run isingGen poissonGen two three a = .error .value) ∧
    (a.distribution = "gaussian" → a.mode = none → (∃ k ∈ a.names, k ∉ covarianceKw) →
      makeDataset inv draw run isingGen poissonGen two three a = .error .type) ∧
    (a.distribution = "ising" → (∃ k ∈ a.names, k = "responses" ∨ k ∉ isingKw) →
      makeDataset inv draw run isingGen poissonGen two three a = .error .type) ∧
    (a.distribution = "ising" → (∀ k ∈ a.names, k ≠ "responses" ∧ k ∈ isingKw) →
      makeDataset inv draw run isingGen poissonGen two three a =
        .ok (graphCase draw a.last (isingGen ((a.extra "degree").getD two)))) := by
  refine ⟨fun h => ?_, fun h s hs hn => ?_, fun h hm hk => ?_, fun h hk => ?_, fun h hk => ?_⟩
  · simp only [List.mem_cons, List.not_mem_nil, or_false, not_or] at h
    rw [makeDataset, if_neg h.1, if_neg h.2.1, if_neg h.2.2]
  · have : modeTable s = none := by
      simp only [List.mem_cons, List.not_mem_nil, or_false, not_or] at hn
      unfold modeTable
      split <;> simp_all
    simp only [makeDataset, if_pos h, gaussianCase, hs, this]
  · obtain ⟨k, hk, hk'⟩ := hk
    have : bindKw (some covarianceKw) (["n_dim_obs", "n_dim_lat", "T"] ++
        ["degree", "epsilon", "keep_sparsity", "proportional"] ++
        ["update_ell", "update_theta", "normalize_starting_matrices"] ++ a.names) = false := by
      rw [bindKw, Bool.eq_false_iff]
      intro hall
      have := (List.all_eq_true.mp hall) k (by simp [hk])
      exact hk' (by simpa using this)
    simp only [makeDataset, if_pos h, gaussianCase, hm, this]
    rfl
  · obtain ⟨k, hk, hk'⟩ := hk
    have hg : ¬ a.distribution = "gaussian" := by rw [h]; decide
    rcases hk' with rfl | hk'
    · rw [makeDataset, if_neg hg, if_pos h, if_pos hk]
    · have : bindKw (some isingKw) a.names = false := by
        rw [bindKw, Bool.eq_false_iff]
        intro hall
        have := (List.all_eq_true.mp hall) k hk
        exact hk' (by simpa using this)
      rw [makeDataset, if_neg hg, if_pos h, this]
      split <;> rfl
  · have hg : ¬ a.distribution = "gaussian" := by rw [h]; decide
    have hb : bindKw (some isingKw) a.names = true := by
      rw [bindKw, List.all_eq_true]
      exact fun k hk' => by simpa using (hk k hk').2
    rw [makeDataset, if_neg hg, if_pos h, if_neg fun hr => (hk _ hr).1 rfl, if_pos hb]
    rfl

/-- C113 is false for the documented modes: "evolving", "fixed", "l1" and "l1l2" raise ValueError. -/
theorem C113_documented_modes_false (a : DArgs V M) (h : a.distribution = "gaussian") (s : String)
    (hs : s ∈ ["evolving", "fixed", "l1", "l1l2"]) (hm : a.mode = some (.inl s)) :
    makeDataset inv draw run isingGen poissonGen two three a = .error .value := by
  refine (C113_dispatch_partial inv draw run isingGen poissonGen two three a).2.1 h s hm ?_
  simp only [List.mem_cons, List.not_mem_nil, or_false] at hs
  rcases hs with rfl | rfl | rfl | rfl <;> decide

/-- C113 is false for three of the modes offered in the error message: "my", "mys" and "ticc" never return a data set,
whatever the generator produces. -/
theorem C113_offered_modes_false (a : DArgs V M) (h : a.distribution = "gaussian") (s : String)
    (hs : s ∈ ["my", "mys", "ticc"]) (hm : a.mode = some (.inl s)) (numBlocks nObs : ℕ)
    (hrun : ∀ f vs, run f = .ok vs → vs.length = nReturned numBlocks nObs f) :
    ∃ e, makeDataset inv draw run isingGen poissonGen two three a = .error e := by
  simp only [makeDataset, if_pos h, gaussianCase, hm]
  have long : ∀ vs : List (List M), vs.length ≠ 3 → unpackSample inv draw a.last vs = .error .value := by
    intro vs hv
    match vs, hv with
    | [], _ => rfl
    | [_], _ => rfl
    | [_, _], _ => rfl
    | [_, _, _], hv => exact absurd rfl hv
    | _ :: _ :: _ :: _ :: _, _ => rfl
  simp only [List.mem_cons, List.not_mem_nil, or_false] at hs
  rcases hs with rfl | rfl | rfl
  · simp only [modeTable]
    cases hr : run .my with
    | error e => exact ⟨e, rfl⟩
    | ok vs => exact ⟨.value, by simp only [reduceCtorEq, if_false]; exact long vs (by rw [hrun _ _ hr]; simp [nReturned])⟩
  · simp only [modeTable]
    cases hr : run .mys with
    | error e => exact ⟨e, rfl⟩
    | ok vs => exact ⟨.value, by simp only [reduceCtorEq, if_false]; exact long vs (by rw [hrun _ _ hr]; simp [nReturned])⟩
  · simp only [modeTable]
    cases hr : run .ticc with
    | error e => exact ⟨e, rfl⟩
    | ok vs =>
      by_cases h3 : vs.length = 3
      · exact ⟨.linalg, by simp [h3]⟩
      · exact ⟨.value, by simp [h3]⟩

/-- C113 is false for `degree` with the Ising and Poisson distributions: whatever degree is given, the first graph is
generated with the default degree of the generator. -/
theorem C113_degree_false (a : DArgs V M) (hn : a.extra "degree" = none) (d : V) :
    graphDegree two { a with degree := d } = two ∧
    (a.distribution = "poisson" →
      makeDataset inv draw run isingGen poissonGen two three { a with degree := d } =
        .ok (graphCase draw a.last (poissonGen three))) := by
  refine ⟨by simp [graphDegree, hn], fun h => ?_⟩
  have hg : ¬ a.distribution = "gaussian" := by rw [h]; decide
  have hi : ¬ a.distribution = "ising" := by rw [h]; decide
  simp only [makeDataset, if_neg hg, if_neg hi, if_pos h, graphDegree, hn, Option.getD_none]

/-- C113 (graphs): with the Ising and Poisson distributions the layout of the samples is the same, one block per
graph. -/
theorem C113_graph_layout_partial (last : Bool) (thetas : List M) :
    ∃ samples, LayoutOk (graphCase draw last thetas) last samples ∧ samples.length = thetas.length ∧
      (∀ (t : ℕ) A, thetas[t]? = some A → samples[t]? = some (draw t A)) ∧ (graphCase draw last thetas).thetas = thetas :=
  ⟨thetas.mapIdx draw, packData_layout _ _ _ _ _, by simp, fun t A h => by simp [h], rfl⟩

end Base

/-! ### C116 -/

section Multi

variable {p : ℕ}

theorem setPair_isSymm {K : Matrix (Fin p) (Fin p) ℕ} (h : K.IsSymm) (r c : Fin p) (a : ℕ) : (setPair K r c a).IsSymm := by
  ext x y
  have hk : K y x = K x y := h.apply x y
  simp only [setPair, transpose_apply, of_apply, hk]
  have : (y = r ∧ x = c ∨ y = c ∧ x = r) ↔ (x = r ∧ y = c ∨ x = c ∧ y = r) := by tauto
  simp only [this]

theorem classLoop_spec (pos : List (Fin p × Fin p)) (i : ℕ) :
    ∀ (coins : List ℕ) (K K' : Matrix (Fin p) (Fin p) ℕ), classLoop pos i coins K = .ok K' →
      (K.IsSymm → K'.IsSymm) ∧
      (∀ x y, K' x y ≠ K x y → ∃ q, pos[i]? = some q ∧ ((x, y) = q ∨ (y, x) = q)) ∧
      (∀ x y, K' x y = K x y ∨ K' x y ∈ coins) ∧
      (∀ q, pos[i]? = some q → ∀ h : coins ≠ [], K' q.1 q.2 = coins.getLast h) := by
  intro coins
  induction coins with
  | nil =>
    intro K K' h
    cases h
    exact ⟨id, fun x y h => absurd rfl h, fun x y => Or.inl rfl, fun q _ h => absurd rfl h⟩
  | cons a rest ih =>
    intro K K' h
    rw [classLoop] at h
    cases hq : pos[i]? with
    | none => rw [hq] at h; cases h
    | some q =>
      rw [hq] at h
      obtain ⟨h1, h2, h3, h4⟩ := ih _ _ h
      refine ⟨fun hs => h1 (setPair_isSymm hs _ _ _), fun x y hxy => ?_, fun x y => ?_, fun q' hq' hne => ?_⟩
      · by_cases hs : setPair K q.1 q.2 a x y = K x y
        · have := h2 x y (by rw [hs]; exact hxy)
          rwa [hq] at this
        · refine ⟨q, rfl, ?_⟩
          by_contra hc
          refine hs (if_neg fun hor => hc ?_)
          rcases hor with ⟨rfl, rfl⟩ | ⟨rfl, rfl⟩
          · exact Or.inl rfl
          · exact Or.inr rfl
      · rcases h3 x y with h | h
        · by_cases hs : (x = q.1 ∧ y = q.2) ∨ (x = q.2 ∧ y = q.1)
          · right
            rw [h, setPair, of_apply, if_pos hs]
            exact List.mem_cons_self ..
          · left
            rw [h, setPair, of_apply, if_neg hs]
        · exact Or.inr (List.mem_cons_of_mem _ h)
      · cases hq'
        by_cases hr : rest = []
        · subst hr
          cases h
          simp [setPair]
        · rw [List.getLast_cons hr]
          exact h4 q hq hr

theorem classesFrom_spec (B : Matrix (Fin p) (Fin p) ℕ) :
    ∀ (coins : List (List ℕ × List ℕ)) (i : ℕ) (l : List (Matrix (Fin p) (Fin p) ℕ)), classesFrom B i coins = .ok l →
      l.length = coins.length ∧ ∀ (k : ℕ) K, l[k]? = some K → ∃ c, coins[k]? = some c ∧
        newClass B (i + k) c.1 c.2 = .ok K := by
  intro coins
  induction coins with
  | nil => intro i l h; cases h; simp
  | cons c rest ih =>
    intro i l h
    rw [classesFrom] at h
    cases hn : newClass B i c.1 c.2 with
    | error e => rw [hn] at h; cases h
    | ok K =>
      rw [hn] at h
      cases hr : classesFrom B (i + 1) rest with
      | error e => simp only [hr] at h; cases h
      | ok l' =>
        simp only [hr] at h
        cases h
        obtain ⟨h1, h2⟩ := ih _ _ hr
        refine ⟨by simp [h1], fun k K' hk => ?_⟩
        cases k with
        | zero =>
          rw [List.getElem?_cons_zero] at hk
          cases hk
          exact ⟨c, rfl, hn⟩
        | succ k =>
          rw [List.getElem?_cons_succ] at hk
          obtain ⟨c', h3, h4⟩ := h2 k K' hk
          exact ⟨c', by rw [List.getElem?_cons_succ, h3], by rw [← h4]; congr 1; omega⟩

/-- C116: the networks of the classes are symmetric 0/1 matrices when the random graph is; but each of them differs
from the first one in at most two pairs of variables, however many positions were selected for change. -/
theorem C116_classes_partial (B : Matrix (Fin p) (Fin p) ℕ) (hs : B.IsSymm) (h01 : ∀ i j, B i j ≤ 1)
    (coins : List (List ℕ × List ℕ)) (hc : ∀ c ∈ coins, (∀ a ∈ c.1, a ≤ 1) ∧ ∀ a ∈ c.2, a ≤ 1)
    (l : List (Matrix (Fin p) (Fin p) ℕ)) (h : binaries B coins = .ok l) :
    l.length = coins.length + 1 ∧ ∀ K ∈ l, K.IsSymm ∧ (∀ i j, K i j ≤ 1) ∧
      ∃ qs : List (Fin p × Fin p), qs.length ≤ 2 ∧ ∀ x y, K x y ≠ B x y → (x, y) ∈ qs ∨ (y, x) ∈ qs := by
  unfold binaries at h
  cases hr : classesFrom B 0 coins with
  | error e => rw [hr] at h; cases h
  | ok l' =>
    rw [hr] at h
    cases h
    obtain ⟨h1, h2⟩ := classesFrom_spec B coins 0 l' hr
    refine ⟨by simp [h1], fun K hK => ?_⟩
    rcases List.mem_cons.mp hK with rfl | hK
    · exact ⟨hs, h01, [], by simp, fun x y h => absurd rfl h⟩
    obtain ⟨k, hk⟩ := List.mem_iff_getElem?.mp hK
    obtain ⟨c, hck, hn⟩ := h2 k K hk
    obtain ⟨hc1, hc2⟩ := hc c (List.mem_iff_getElem?.mpr ⟨k, hck⟩)
    unfold newClass at hn
    cases hl : classLoop (wherePos B true) (0 + k) c.1 B with
    | error e => rw [hl] at hn; cases hn
    | ok K1 =>
      rw [hl] at hn
      obtain ⟨a1, a2, a3, _⟩ := classLoop_spec _ _ _ _ _ hl
      obtain ⟨b1, b2, b3, _⟩ := classLoop_spec _ _ _ _ _ hn
      have hK1 : ∀ i j, K1 i j ≤ 1 := by
        intro i j
        rcases a3 i j with h | h
        · rw [h]; exact h01 i j
        · exact hc1 _ h
      refine ⟨b1 (a1 hs), fun i j => ?_,
        ((wherePos B true)[0 + k]?).toList ++ ((wherePos B false)[0 + k]?).toList, ?_, ?_⟩
      · rcases b3 i j with h | h
        · rw [h]; exact hK1 i j
        · exact hc2 _ h
      · rw [List.length_append]
        have : ∀ o : Option (Fin p × Fin p), o.toList.length ≤ 1 := fun o => by cases o <;> simp
        have h1 := this (wherePos B true)[0 + k]?
        have h2 := this (wherePos B false)[0 + k]?
        omega
      · intro x y hxy
        by_cases h : K x y = K1 x y
        · obtain ⟨q, hq, hor⟩ := a2 x y (by rw [← h]; exact hxy)
          rw [hq]
          rcases hor with h | h
          · exact Or.inl (by simp [h])
          · exact Or.inr (by simp [h])
        · obtain ⟨q, hq, hor⟩ := b2 x y h
          rw [hq]
          rcases hor with h | h
          · exact Or.inl (by simp [h])
          · exact Or.inr (by simp [h])

/-- Non-vacuity for C116: in the graph without edges on ten nodes, ten positions are selected for each class. -/
example : toChange (0 : Matrix (Fin 10) (Fin 10) ℕ) true = 10 ∧
    ∃ l, binaries (0 : Matrix (Fin 10) (Fin 10) ℕ) [(List.replicate 10 1, [])] = .ok l := ⟨by decide, _, rfl⟩

/-- C116 is false: a class can contain an edge from a node to itself. For the star on four nodes one position is
selected in the second class, and it is always the first zero, the diagonal entry of the first node. -/
theorem C116_selfloop_false : ∃ (B : Matrix (Fin 4) (Fin 4) ℕ) (coins : List (List ℕ × List ℕ))
    (l : List (Matrix (Fin 4) (Fin 4) ℕ)), B.IsSymm ∧ (∀ i j, B i j ≤ 1) ∧ (∀ i, B i i = 0) ∧
      (∀ c ∈ coins, c.1.length = toChange B true ∧ c.2.length = toChange B false ∧ ∀ a ∈ c.1, a ≤ 1) ∧
      binaries B coins = .ok l ∧ ∃ K ∈ l, K 0 0 = 1 := by
  refine ⟨!![0, 1, 1, 1; 1, 0, 0, 0; 1, 0, 0, 0; 1, 0, 0, 0], [([1], [])],
    [!![0, 1, 1, 1; 1, 0, 0, 0; 1, 0, 0, 0; 1, 0, 0, 0],
      setPair !![0, 1, 1, 1; 1, 0, 0, 0; 1, 0, 0, 0; 1, 0, 0, 0] 0 0 1], ?_,
    by intro i j; fin_cases i <;> fin_cases j <;> decide, by decide, by decide, ?_, ?_⟩
  · ext i j
    fin_cases i <;> fin_cases j <;> rfl
  · have : (wherePos (!![0, 1, 1, 1; 1, 0, 0, 0; 1, 0, 0, 0; 1, 0, 0, 0] : Matrix (Fin 4) (Fin 4) ℕ) true)[0]? =
        some (0, 0) := by decide
    simp only [binaries, classesFrom, newClass, classLoop, this]
  · exact ⟨_, List.mem_cons_of_mem _ (List.mem_cons_self ..), by decide⟩

/-- C116 (Gaussian networks): the network of a class is symmetric with unit diagonal, and vanishes outside the edges of
the class. -/
theorem C116_gauss_partial (A : Matrix (Fin p) (Fin p) ℝ) (b : Matrix (Fin p) (Fin p) ℕ) (hb : b.IsSymm) :
    (gaussNet A b).IsSymm ∧ (∀ i, gaussNet A b i i = 1) ∧ ∀ i j, i ≠ j → b i j = 0 → gaussNet A b i j = 0 := by
  refine ⟨?_, fun i => by simp [gaussNet], fun i j hij h => by simp [gaussNet, hij, h]⟩
  ext i j
  have h : b j i = b i j := hb.apply i j
  simp only [gaussNet, transpose_apply, of_apply, h]
  by_cases hij : i = j
  · rw [if_pos hij, if_pos hij.symm]
  · rw [if_neg hij, if_neg (Ne.symm hij), add_comm]

/-- C116 is false for the Gaussian networks: their inverse is used as a covariance, but they need not be positive
definite (complete graph on four nodes, all samples 0.01). -/
theorem C116_posdef_false : ∃ (A : Matrix (Fin 4) (Fin 4) ℝ) (b : Matrix (Fin 4) (Fin 4) ℕ), b.IsSymm ∧
    (∀ i j, b i j ≤ 1) ∧ (∀ i, b i i = 0) ∧ (∀ i j, 0 ≤ A i j ∧ A i j < 1) ∧ ¬ (gaussNet A b).PosDef := by
  refine ⟨Matrix.of fun _ _ => 0.01, Matrix.of fun i j => if i = j then 0 else 1, ?_,
    by intro i j; fin_cases i <;> fin_cases j <;> decide, by decide,
    fun i j => by simp only [of_apply]; norm_num, fun h => ?_⟩
  · ext i j
    simp only [transpose_apply, of_apply, eq_comm]
  · have := h.dotProduct_mulVec_pos (x := fun _ => 1) (by
      intro h0
      exact one_ne_zero (congrFun h0 0))
    simp [dotProduct, mulVec, Fin.sum_univ_four, gaussNet] at this
    norm_num at this

end Multi

end Verif.Props
