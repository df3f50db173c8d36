import Verif.Model.BayesSearch
import Mathlib.Tactic.Linarith

/-! C198: what the Bayesian search selects, reports and changes. -/

namespace Verif.Props

open Verif.Model

set_option autoImplicit false
set_option linter.unusedSectionVars false

/-- Specification: the estimator with the searched parameters replaced, the `i`-th name by ten to the `i`-th
coordinate, every other parameter as passed by the user. -/
def IsCandidate (names : List String) (mdl : Params) (x : List ℝ) (p : Params) : Prop :=
  (∀ q, q ∉ names → p q = mdl q) ∧
  ∀ i (hi : i < names.length) (hx : i < x.length), p names[i] = .num ((10 : ℝ) ^ x[i])

theorem setParams_eq (l : List (String × ParamVal)) (p : Params) (q : String) :
    setParams p l q = (l.reverse.lookup q).getD (p q) := by
  induction l generalizing p with
  | nil => rfl
  | cons a l ih =>
    obtain ⟨k, v⟩ := a
    rw [setParams, ih, List.reverse_cons]
    rw [List.lookup_append]
    by_cases h : q = k
    · subst h
      cases h2 : l.reverse.lookup q <;> simp
    · have : (q == k) = false := by simpa using h
      cases h2 : l.reverse.lookup q <;> simp [h, List.lookup, this]

theorem setParams_notMem (l : List (String × ParamVal)) (p : Params) (q : String) (h : ∀ v, (q, v) ∉ l) :
    setParams p l q = p q := by
  induction l generalizing p with
  | nil => rfl
  | cons a l ih =>
    obtain ⟨k, v⟩ := a
    rw [setParams, ih _ fun w hw => h w (List.mem_cons_of_mem _ hw)]
    have : q ≠ k := fun e => h v (by rw [e]; exact List.mem_cons_self)
    simp [this]

/-- On the names of the list the earlier values do not matter. -/
theorem setParams_mem (l : List (String × ParamVal)) (p p' : Params) (q : String) (h : ∃ v, (q, v) ∈ l) :
    setParams p l q = setParams p' l q := by
  induction l generalizing p p' with
  | nil => simp at h
  | cons a l ih =>
    obtain ⟨k, v⟩ := a
    rw [setParams, setParams]
    by_cases h2 : ∃ w, (q, w) ∈ l
    · exact ih _ _ h2
    · have h3 : ∀ w, (q, w) ∉ l := fun w hw => h2 ⟨w, hw⟩
      rw [setParams_notMem _ _ _ h3, setParams_notMem _ _ _ h3]
      obtain ⟨w, hw⟩ := h
      rcases List.mem_cons.mp hw with e | e
      · obtain ⟨rfl, rfl⟩ := Prod.mk.inj e
        simp
      · exact absurd e (h3 w)

theorem mem_zip_names {names : List String} {w : List ParamVal} (h : w.length = names.length) (q : String) :
    (∃ v, (q, v) ∈ names.zip w) ↔ q ∈ names := by
  constructor
  · rintro ⟨v, hv⟩; exact (List.of_mem_zip hv).1
  · intro hq
    obtain ⟨i, hi, rfl⟩ := List.mem_iff_getElem.mp hq
    refine ⟨w[i]'(by omega), ?_⟩
    rw [List.mem_iff_getElem]
    exact ⟨i, by simp [List.length_zip]; omega, by simp⟩

/-- Setting the searched parameters again forgets the earlier setting. -/
theorem setParams_again {names : List String} {x y : List ℝ} (_hx : x.length = names.length)
    (hy : y.length = names.length) (p : Params) :
    setParams (setParams p (searchParams names x)) (searchParams names y) = setParams p (searchParams names y) := by
  funext q
  by_cases h : q ∈ names
  · exact setParams_mem _ _ _ _ ((mem_zip_names (by simpa using hy) q).2 h)
  · have hn : ∀ z : List ℝ, ∀ v, (q, v) ∉ searchParams names z := fun z v hv => h (List.of_mem_zip hv).1
    rw [setParams_notMem _ _ _ (hn y), setParams_notMem _ _ _ (hn x), setParams_notMem _ _ _ (hn y)]

theorem setParams_at {names : List String} (hn : names.Nodup) {w : List ParamVal} (h : w.length = names.length)
    (p : Params) (i : ℕ) (hi : i < names.length) : setParams p (names.zip w) names[i] = w[i]'(by omega) := by
  induction names generalizing w p i with
  | nil => simp at hi
  | cons k names ih =>
    cases w with
    | nil => simp at h
    | cons v w =>
      rw [List.zip_cons_cons, setParams]
      have hn' := List.nodup_cons.mp hn
      cases i with
      | zero =>
        rw [setParams_notMem]
        · simp
        · intro u hu
          exact hn'.1 (List.of_mem_zip hu).1
      | succ i =>
        simp only [List.getElem_cons_succ]
        exact ih hn'.2 (by simpa using h) _ i (by simpa using hi)

/-- The model's `set_params` gives the candidate of the specification. -/
theorem setParams_candidate {names : List String} (hn : names.Nodup) {x : List ℝ} (hx : x.length = names.length)
    (p : Params) : IsCandidate names p x (setParams p (searchParams names x)) := by
  refine ⟨fun q hq => setParams_notMem _ _ _ fun v hv => hq (List.of_mem_zip hv).1, fun i hi hxi => ?_⟩
  unfold searchParams
  rw [setParams_at hn (by simpa using hx)]
  simp

theorem candidate_unique {names : List String} {x : List ℝ} (hx : x.length = names.length) {mdl p p' : Params}
    (h : IsCandidate names mdl x p) (h' : IsCandidate names mdl x p') : p = p' := by
  funext q
  by_cases hq : q ∈ names
  · obtain ⟨i, hi, rfl⟩ := List.mem_iff_getElem.mp hq
    rw [h.2 i hi (by omega), h'.2 i hi (by omega)]
  · rw [h.1 q hq, h'.1 q hq]

theorem evaluateAll_fst {names : List String} (score : Params → XF) (mdl mdl0 : Params) (points : List (List ℝ))
    (hl : ∀ x ∈ points, x.length = names.length)
    (hm : ∀ x : List ℝ, x.length = names.length →
      setParams mdl (searchParams names x) = setParams mdl0 (searchParams names x)) :
    (evaluateAll names score mdl points).1 =
      points.map fun x => XF.neg (score (setParams mdl0 (searchParams names x))) := by
  induction points generalizing mdl with
  | nil => rfl
  | cons x xs ih =>
    simp only [evaluateAll, fitScore, List.map_cons]
    rw [hm x (hl x List.mem_cons_self)]
    rw [ih _ (fun y hy => hl y (List.mem_cons_of_mem _ hy)) fun y hy =>
      setParams_again (hl x List.mem_cons_self) hy mdl0]

theorem evaluateAll_snd {names : List String} (score : Params → XF) (mdl : Params) (points : List (List ℝ))
    (hl : ∀ x ∈ points, x.length = names.length) (hne : points ≠ []) :
    (evaluateAll names score mdl points).2 = setParams mdl (searchParams names (points.getLast hne)) := by
  induction points generalizing mdl with
  | nil => exact absurd rfl hne
  | cons x xs ih =>
    simp only [evaluateAll, fitScore]
    cases xs with
    | nil => rfl
    | cons y ys =>
      rw [ih _ (fun z hz => hl z (List.mem_cons_of_mem _ hz)) (by simp)]
      rw [List.getLast_cons (List.cons_ne_nil y ys)]
      exact setParams_again (hl x List.mem_cons_self)
        (hl _ (List.mem_cons_of_mem _ (List.getLast_mem _))) mdl

theorem XF_lt_irrefl (a : XF) : ¬ XF.lt a a := by
  cases a <;> simp [XF.lt]

/-- For values other than nan, "not smaller" is transitive. -/
theorem XF_not_lt_trans {a b c : XF} (hb : b ≠ .nan) (h1 : ¬ XF.lt a b) (h2 : ¬ XF.lt b c) : ¬ XF.lt a c := by
  cases a <;> cases b <;> cases c <;> simp_all [XF.lt]
  exact le_trans h2 h1

theorem XF_lt_asymm {a b : XF} (h : XF.lt a b) : ¬ XF.lt b a := by
  cases a <;> cases b <;> simp_all [XF.lt]
  exact le_of_lt h

theorem XF_neg_lt (a b : XF) : XF.lt (XF.neg a) (XF.neg b) ↔ XF.lt b a := by
  cases a <;> cases b <;> simp [XF.lt, XF.neg]

theorem XF_neg_nan (a : XF) : XF.neg a = .nan ↔ a = .nan := by
  cases a <;> simp [XF.neg]

theorem argmin_inv (P : List XF) (Y : List XF) (b : ℕ × XF) (hb : P[b.1]? = some b.2) :
    (P ++ Y)[(argminFrom b P.length Y).1]? = some (argminFrom b P.length Y).2 := by
  induction Y generalizing P b with
  | nil => simpa [argminFrom] using hb
  | cons y Y ih =>
    have hlen : b.1 < P.length := (List.getElem?_eq_some_iff.mp hb).1
    have h := ih (P ++ [y]) (argminStep b P.length y) (by
      unfold argminStep
      split
      · rw [List.getElem?_append_left hlen]; exact hb
      · split
        · simp
        · rw [List.getElem?_append_left hlen]; exact hb)
    simpa [argminFrom, List.append_assoc] using h

/-- Without nan the value found is not beaten by any other. -/
theorem argmin_le (Y : List XF) (b : ℕ × XF) (i : ℕ) (hb : b.2 ≠ .nan) (hY : ∀ y ∈ Y, y ≠ .nan) :
    (argminFrom b i Y).2 ≠ .nan ∧ ¬ XF.lt b.2 (argminFrom b i Y).2 ∧ ∀ y ∈ Y, ¬ XF.lt y (argminFrom b i Y).2 := by
  induction Y generalizing b i with
  | nil => exact ⟨hb, XF_lt_irrefl _, by simp⟩
  | cons y Y ih =>
    have hy := hY y List.mem_cons_self
    have hY' : ∀ z ∈ Y, z ≠ .nan := fun z hz => hY z (List.mem_cons_of_mem _ hz)
    have hs : (argminStep b i y).2 ≠ .nan ∧ ¬ XF.lt b.2 (argminStep b i y).2 ∧ ¬ XF.lt y (argminStep b i y).2 := by
      unfold argminStep
      rw [if_neg hb]
      split
      · rename_i h
        rcases h with h | h
        · exact absurd h hy
        · exact ⟨hy, XF_lt_asymm h, XF_lt_irrefl _⟩
      · rename_i h
        exact ⟨hb, XF_lt_irrefl _, fun h' => h (Or.inr h')⟩
    obtain ⟨h1, h2, h3⟩ := ih (argminStep b i y) (i + 1) hs.1 hY'
    refine ⟨h1, XF_not_lt_trans hs.1 hs.2.1 h2, fun z hz => ?_⟩
    rcases List.mem_cons.mp hz with rfl | hz
    · exact XF_not_lt_trans hs.1 hs.2.2 h2
    · exact h3 z hz

theorem argmin_nan_keep (Y : List XF) (b : ℕ × XF) (i : ℕ) (hb : b.2 = .nan) : argminFrom b i Y = b := by
  induction Y generalizing i with
  | nil => rfl
  | cons y Y ih => rw [argminFrom, argminStep, if_pos hb, ih]

/-- With a nan the value found is nan. -/
theorem argmin_nan (Y : List XF) (b : ℕ × XF) (i : ℕ) (h : b.2 = .nan ∨ XF.nan ∈ Y) : (argminFrom b i Y).2 = .nan := by
  induction Y generalizing b i with
  | nil => simpa [argminFrom] using h
  | cons y Y ih =>
    by_cases hb : b.2 = .nan
    · rw [argmin_nan_keep _ _ _ hb]; exact hb
    · rw [argminFrom]
      refine ih _ _ ?_
      rcases h with h | h
      · exact absurd h hb
      rcases List.mem_cons.mp h with h | h
      · left
        rw [argminStep, if_neg hb, if_pos (Or.inl h.symm)]
        exact h.symm
      · exact Or.inr h

/-- Everything `fit` leaves behind, in terms of the scores at the evaluated points. -/
theorem bayesFit_facts {names : List String} (score : Params → XF) (mdl : Params) {points : List (List ℝ)}
    (hl : ∀ x ∈ points, x.length = names.length) {r : BayesResult}
    (hr : bayesFit names score mdl points = some r) :
    let val := fun x : List ℝ => score (setParams mdl (searchParams names x))
    ∃ (hne : points ≠ []) (hi : r.bestIndex < points.length),
      r.bestParams = searchParams names points[r.bestIndex] ∧
      r.bestScore = XF.neg (val points[r.bestIndex]) ∧
      r.bestEstimator = setParams mdl (searchParams names points[r.bestIndex]) ∧
      r.estimator = setParams mdl (searchParams names (points.getLast hne)) ∧
      ((∀ x ∈ points, val x ≠ .nan) → ∀ x ∈ points, ¬ XF.lt (val points[r.bestIndex]) (val x)) ∧
      ((∃ x ∈ points, val x = .nan) → val points[r.bestIndex] = .nan) := by
  intro val
  have hv := evaluateAll_fst score mdl mdl points hl fun _ _ => rfl
  unfold bayesFit at hr
  cases points with
  | nil => simp [evaluateAll] at hr
  | cons x xs =>
    have hne : x :: xs ≠ [] := by simp
    have hs := evaluateAll_snd score mdl (x :: xs) hl hne
    simp only [hv, List.map_cons] at hr
    have hr' := Option.some.inj hr
    have hidx := argmin_inv [XF.neg (val x)] (xs.map fun z => XF.neg (val z)) (0, XF.neg (val x)) rfl
    simp only [List.length_singleton, List.singleton_append] at hidx
    rw [← List.map_cons (f := fun z => XF.neg (val z))] at hidx
    subst hr'
    simp only
    set b := argminFrom (0, XF.neg (val x)) 1 (xs.map fun z => XF.neg (val z)) with hb
    change ((x :: xs).map fun z => XF.neg (val z))[b.1]? = some b.2 at hidx
    obtain ⟨h1, h2⟩ := List.getElem?_eq_some_iff.mp hidx
    have hi : b.1 < (x :: xs).length := by simpa using h1
    have h2' : XF.neg (val (x :: xs)[b.1]) = b.2 := by
      rw [← h2, List.getElem_map]
    have hget : (x :: xs).getD b.1 [] = (x :: xs)[b.1] := by
      rw [List.getD_eq_getElem?_getD, List.getElem?_eq_getElem hi]; rfl
    refine ⟨hne, hi, ?_, h2'.symm, ?_, hs, ?_, ?_⟩
    · rw [hget]
    · rw [hget, hs]
      exact setParams_again (hl _ (List.getLast_mem _)) (hl _ (List.getElem_mem _)) mdl
    · intro hn z hz hlt
      obtain ⟨-, ha, hb'⟩ := argmin_le (xs.map fun z => XF.neg (val z)) (0, XF.neg (val x)) 1
        (fun h => hn x List.mem_cons_self ((XF_neg_nan _).1 h)) (fun y hy => by
          obtain ⟨w, hw, rfl⟩ := List.mem_map.mp hy
          exact fun h => hn w (List.mem_cons_of_mem _ hw) ((XF_neg_nan _).1 h))
      rw [← hb, ← h2'] at ha hb'
      rcases List.mem_cons.mp hz with rfl | hz
      · exact ha ((XF_neg_lt _ _).2 hlt)
      · exact hb' _ (List.mem_map.mpr ⟨z, hz, rfl⟩) ((XF_neg_lt _ _).2 hlt)
    · rintro ⟨z, hz, hzn⟩
      have := argmin_nan (xs.map fun z => XF.neg (val z)) (0, XF.neg (val x)) 1 (by
        rcases List.mem_cons.mp hz with rfl | hz
        · left; exact (XF_neg_nan _).2 hzn
        · right; exact List.mem_map.mpr ⟨z, hz, (XF_neg_nan _).2 hzn⟩)
      rw [← hb, ← h2'] at this
      exact (XF_neg_nan _).1 this

/-- C198: whatever points the optimiser evaluates, when no score is nan the reported parameters are those of an evaluated
point whose mean score is beaten by no other evaluated point, and the refitted estimator is the user's estimator with
exactly these parameters replaced. Earlier evaluations leave no trace. -/
theorem C198_best_partial {names : List String} (hn : names.Nodup) (score : Params → XF) (mdl : Params)
    {points : List (List ℝ)} (hl : ∀ x ∈ points, x.length = names.length) (hne : points ≠ []) {cand : List ℝ → Params}
    (hc : ∀ x ∈ points, IsCandidate names mdl x (cand x)) (hs : ∀ x ∈ points, score (cand x) ≠ .nan) :
    ∃ r, bayesFit names score mdl points = some r ∧ ∃ best ∈ points, points[r.bestIndex]? = some best ∧
      r.bestParams = names.zip (best.map fun v => .num ((10 : ℝ) ^ v)) ∧
      IsCandidate names mdl best r.bestEstimator ∧
      ∀ x ∈ points, ¬ XF.lt (score (cand best)) (score (cand x)) := by
  have hcand : ∀ x ∈ points, setParams mdl (searchParams names x) = cand x := fun x hx =>
    candidate_unique (hl x hx) (setParams_candidate hn (hl x hx) mdl) (hc x hx)
  have hsome : ∃ r, bayesFit names score mdl points = some r := by
    unfold bayesFit
    simp only [evaluateAll_fst score mdl mdl points hl fun _ _ => rfl]
    cases points with
    | nil => exact absurd rfl hne
    | cons x xs => exact ⟨_, rfl⟩
  obtain ⟨r, hr⟩ := hsome
  obtain ⟨_, hi, h1, _, h3, _, h5, _⟩ := bayesFit_facts score mdl hl hr
  have hmem : points[r.bestIndex] ∈ points := List.getElem_mem _
  refine ⟨r, hr, points[r.bestIndex], hmem, List.getElem?_eq_getElem hi, h1, ?_, fun x hx => ?_⟩
  · rw [h3]; exact setParams_candidate hn (hl _ hmem) mdl
  · have := h5 (fun y hy => by beta_reduce; rw [hcand y hy]; exact hs y hy) x hx
    beta_reduce at this
    rwa [hcand x hx, hcand _ hmem] at this

/-- C198 is false for the reported score: `best_score_` is minus the mean score of the selected parameters. -/
theorem C198_score_false {names : List String} (score : Params → XF) (mdl : Params) {points : List (List ℝ)}
    (hl : ∀ x ∈ points, x.length = names.length) {r : BayesResult}
    (hr : bayesFit names score mdl points = some r) (v : ℝ) (hv : score r.bestEstimator = .fin v) :
    r.bestScore = .fin (-v) ∧ (v ≠ 0 → r.bestScore ≠ score r.bestEstimator) := by
  obtain ⟨_, hi, _, h2, h3, _⟩ := bayesFit_facts score mdl hl hr
  rw [h3] at hv
  simp only [hv] at h2
  refine ⟨h2, fun h0 he => h0 ?_⟩
  rw [h2, h3, hv] at he
  have := XF.fin.inj he
  linarith

/-- C198 is false when one candidate fails: a single nan score is selected as the best, however good the others are. -/
theorem C198_nan_false {names : List String} (hn : names.Nodup) (score : Params → XF) (mdl : Params)
    {points : List (List ℝ)} (hl : ∀ x ∈ points, x.length = names.length) {cand : List ℝ → Params}
    (hc : ∀ x ∈ points, IsCandidate names mdl x (cand x)) (hs : ∃ x ∈ points, score (cand x) = .nan) {r : BayesResult}
    (hr : bayesFit names score mdl points = some r) : score r.bestEstimator = .nan ∧ r.bestScore = .nan := by
  obtain ⟨_, hi, _, h2, h3, _, _, h6⟩ := bayesFit_facts score mdl hl hr
  have hcand : ∀ x ∈ points, setParams mdl (searchParams names x) = cand x := fun x hx =>
    candidate_unique (hl x hx) (setParams_candidate hn (hl x hx) mdl) (hc x hx)
  obtain ⟨x, hx, hxn⟩ := hs
  have := h6 ⟨x, hx, by beta_reduce; rw [hcand x hx]; exact hxn⟩
  rw [h3, h2]
  exact ⟨this, (XF_neg_nan _).2 this⟩

/-- C198 is false for the estimator passed by the user: the search leaves it with the parameters of the last evaluated
point, so a parameter of a searched name is changed unless that point happens to carry its value. -/
theorem C198_mutates_false {names : List String} (hn : names.Nodup) (score : Params → XF) (mdl : Params)
    {points : List (List ℝ)} (hl : ∀ x ∈ points, x.length = names.length) (hne : points ≠ []) {r : BayesResult}
    (hr : bayesFit names score mdl points = some r) :
    IsCandidate names mdl (points.getLast hne) r.estimator ∧
      (r.estimator = mdl ↔ ∀ i (hi : i < names.length) (hx : i < (points.getLast hne).length),
        mdl names[i] = .num ((10 : ℝ) ^ (points.getLast hne)[i])) := by
  obtain ⟨_, _, _, _, _, h4, _⟩ := bayesFit_facts score mdl hl hr
  have hlast := hl _ (List.getLast_mem hne)
  have hc : IsCandidate names mdl (points.getLast hne) r.estimator := by
    rw [h4]; exact setParams_candidate hn hlast mdl
  refine ⟨hc, fun h i hi hx => ?_, fun h => ?_⟩
  · rw [← h]
    exact hc.2 i hi hx
  · exact candidate_unique hlast hc ⟨fun _ _ => rfl, h⟩

/-- Non-vacuity for C198: two candidates for one parameter, scored by the parameter itself. -/
example : ∃ (score : Params → XF) (cand : List ℝ → Params),
    (∀ x ∈ [[0], [(1 : ℝ)]], IsCandidate ["alpha"] (fun _ => .other "default") x (cand x)) ∧
    (∀ x ∈ [[0], [(1 : ℝ)]], score (cand x) ≠ .nan) ∧ XF.lt (score (cand [0])) (score (cand [1])) := by
  refine ⟨fun p => match p "alpha" with | .num r => .fin r | .other _ => .fin 0,
    fun x => setParams (fun _ => .other "default") (searchParams ["alpha"] x), fun x hx => ?_, fun x hx => ?_, ?_⟩
  · refine setParams_candidate (by simp) ?_ _
    rcases List.mem_cons.mp hx with rfl | hx
    · rfl
    · rw [List.mem_singleton.mp hx]; rfl
  · rcases List.mem_cons.mp hx with rfl | hx
    · simp [searchParams, setParams]
    · rw [List.mem_singleton.mp hx]; simp [searchParams, setParams]
  · simp [searchParams, setParams, XF.lt]

end Verif.Props
