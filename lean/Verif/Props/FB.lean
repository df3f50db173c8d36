import Verif.Lemmas.FB
import Verif.Lemmas.TGL
import Mathlib.LinearAlgebra.Matrix.Determinant.Misc

/-! Forward-backward splitting for the time-varying graphical lasso: C43, C44, C45, C67-C72. -/

namespace Verif.Props

open Matrix Verif.Spec Verif.Model Verif.Lemmas

set_option autoImplicit false
set_option linter.unusedSectionVars false

variable {n : Type*} [Fintype n] [LinearOrder n] {T : ℕ}

/-! ### C43: choose_gamma -/

/-- Admissible steps as documented: a positive definite proximal point, or (when searching for
gamma) sufficient decrease of the loss along the step. -/
def Admissible (choose : String) (f : Batch (T + 1) n → XF) (x grad : Batch (T + 1) n)
    (lamda delta gamma : ℝ) (y : Batch (T + 1) n) : Prop :=
  if choose = "gamma" then
    xfLe (XF.sub (f (x + lamda • (y - x))) (f x))
      (.fin (lamda * (seqInner (y - x) grad + delta / gamma * seqSq (y - x))))
  else ∀ t, (y t).PosDef

theorem gammaAccept_iff (choose : String) (f : Batch (T + 1) n → XF) (x grad : Batch (T + 1) n)
    (lamda delta gamma : ℝ) (y : Batch (T + 1) n) :
    gammaAccept choose f x grad lamda delta gamma y = true ↔
      Admissible choose f x grad lamda delta gamma y := by
  unfold gammaAccept Admissible
  by_cases h : choose = "gamma"
  · rw [if_pos h, if_pos h]
    simp only [decide_eq_true_eq]
    rw [scalarProduct_eq, scalarProduct_eq, seqInner_self]
  · rw [if_neg h, if_neg h]
    unfold isPosDef
    rw [decide_eq_true_eq]
    classical exact forall_congr' fun t => by rw [decide_eq_true_iff]

/-- C43: as soon as one of the first `max_iter` steps `gamma * eps^j` is admissible, the first of
them is returned together with its own proximal point. -/
theorem C43_first_admissible (tv : (Fin (T + 1) → ℝ) → ℝ → Fin (T + 1) → ℝ) (a : FBArgs T n)
    (maxIter : ℕ) (gamma : ℝ) (x grad : Batch (T + 1) n) (lamda : ℝ) (j : ℕ) (hj : j < maxIter)
    (hacc : Admissible a.choose (fbLoss a) x grad lamda a.delta (gamma * a.eps ^ j)
      (fbProx tv a x grad (gamma * a.eps ^ j)))
    (hno : ∀ i < j, ¬ Admissible a.choose (fbLoss a) x grad lamda a.delta (gamma * a.eps ^ i)
      (fbProx tv a x grad (gamma * a.eps ^ i))) :
    chooseGamma tv a maxIter gamma x grad lamda =
      .ok (gamma * a.eps ^ j, fbProx tv a x grad (gamma * a.eps ^ j)) := by
  unfold chooseGamma
  refine gammaLoop_first _ _ _ _ _ _ j hj ?_ fun i hi => ?_
  · rw [gammaAccept_iff]; exact hacc
  · rw [← Bool.not_eq_true, gammaAccept_iff]; exact hno i hi

/-- C43: `max_iter = 0` raises NameError. -/
theorem C43_zero (tv : (Fin (T + 1) → ℝ) → ℝ → Fin (T + 1) → ℝ) (a : FBArgs T n) (gamma : ℝ)
    (x grad : Batch (T + 1) n) (lamda : ℝ) :
    chooseGamma tv a 0 gamma x grad lamda = .error .name := rfl

/-- C43: what is always true of the returned pair: the step is `gamma * eps^k` with `k ≤ max_iter`;
it is `k < max_iter` with matching proximal point and an admissible step, or the search is exhausted
and the point belongs to the step before the last shrinking. Missing for the full statement: in the
exhausted case the point should be the proximal point of the returned step. -/
theorem C43_returned_partial (tv : (Fin (T + 1) → ℝ) → ℝ → Fin (T + 1) → ℝ) (a : FBArgs T n)
    (m : ℕ) (gamma : ℝ) (x grad : Batch (T + 1) n) (lamda : ℝ) :
    ∃ r y, chooseGamma tv a (m + 1) gamma x grad lamda = .ok (r, y) ∧
      ((∃ k < m + 1, r = gamma * a.eps ^ k ∧ y = fbProx tv a x grad r ∧
          Admissible a.choose (fbLoss a) x grad lamda a.delta r y) ∨
        (r = gamma * a.eps ^ (m + 1) ∧ y = fbProx tv a x grad (gamma * a.eps ^ m) ∧
          ∀ k < m + 1, ¬ Admissible a.choose (fbLoss a) x grad lamda a.delta (gamma * a.eps ^ k)
            (fbProx tv a x grad (gamma * a.eps ^ k)))) := by
  unfold chooseGamma
  rcases gammaLoop_cases (fbProx tv a x grad)
    (gammaAccept a.choose (fbLoss a) x grad lamda a.delta) a.eps (m + 1) gamma with
    ⟨j, hj, h1, h2⟩ | h
  · exact ⟨_, _, gammaLoop_first _ _ _ (m + 1) gamma none j hj h1 h2,
      Or.inl ⟨j, hj, rfl, rfl, (gammaAccept_iff _ _ _ _ _ _ _ _).mp h1⟩⟩
  · refine ⟨_, _, gammaLoop_exhausted _ _ _ m gamma none h, Or.inr ⟨rfl, rfl, fun k hk hc => ?_⟩⟩
    have := h k hk
    rw [(gammaAccept_iff _ _ _ _ _ _ _ _).mpr hc] at this
    exact absurd this (by simp)

/-- Arguments used in the examples below: one feature. -/
noncomputable def fbDemo (choose : String) (lap : Bool) (nS : Option (Fin 2 → ℝ)) : FBArgs 1 (Fin 1) where
  empCov := fun _ => 1
  alpha := 0
  beta := 0
  maxIter := 1
  nSamples := nS
  tol := 0
  delta := 1 / 2
  gamma := 1
  lamda := 1
  eps := 1 / 2
  choose := choose
  vareps := 0
  stopWhen := 0
  laplacian := lap

theorem fbDemo_prox (choose : String) (nS : Option (Fin 2 → ℝ)) (x grad : Batch 2 (Fin 1))
    (gamma : ℝ) (tv : (Fin 2 → ℝ) → ℝ → Fin 2 → ℝ) (t : Fin 2) :
    fbProx tv (fbDemo choose true nS) x grad gamma t = x t - gamma • grad t := by
  unfold fbProx
  have : (fbDemo choose true nS).laplacian = true := rfl
  rw [if_pos this]
  ext i j
  rw [softOff_apply]
  have hij : i = j := Subsingleton.elim _ _
  rw [if_pos hij]
  exact softScalar_zero_right _

/-- C43: when the search is exhausted the returned point is not the proximal point of the returned
step. -/
theorem C43_exhausted_false : ∃ (a : FBArgs 1 (Fin 1)) (x grad : Batch 2 (Fin 1)) (m : ℕ),
    0 < m ∧ ∀ tv, ∃ r y, chooseGamma tv a m 1 x grad 1 = .ok (r, y) ∧
      y ≠ fbProx tv a x grad r := by
  refine ⟨fbDemo "both" true none, 0, fun _ => 1, 1, one_pos, fun tv => ?_⟩
  obtain ⟨r, y, h, hcase⟩ := C43_returned_partial tv (fbDemo "both" true none) 0 1 0 (fun _ => 1) 1
  refine ⟨r, y, h, ?_⟩
  have he : (fbDemo "both" true none).eps = 1 / 2 := rfl
  rcases hcase with ⟨k, hk, hr, hy, hadm⟩ | ⟨hr, hy, -⟩
  · exfalso
    unfold Admissible at hadm
    rw [if_neg (by decide : (fbDemo "both" true none).choose ≠ "gamma")] at hadm
    have h0 := (hadm 0).diag_pos (i := 0)
    rw [hy, fbDemo_prox, hr, he] at h0
    have : k = 0 := by omega
    subst this
    norm_num at h0
  · rw [hy, hr, he]
    intro hc
    have := congrFun (congrFun (congrFun hc 0) 0) 0
    rw [fbDemo_prox, fbDemo_prox] at this
    norm_num at this

/-- The hypotheses of `C43_first_admissible` are met: the first step is admissible when the point is
positive definite and the gradient vanishes. -/
example (tv : (Fin 2 → ℝ) → ℝ → Fin 2 → ℝ) :
    Admissible "both" (fbLoss (fbDemo "both" true none)) (fun _ => 1) 0 1 0 (1 * (1 / 2) ^ 0)
      (fbProx tv (fbDemo "both" true none) (fun _ => 1) 0 (1 * (1 / 2) ^ 0)) := by
  unfold Admissible
  rw [if_neg (by decide)]
  intro t
  rw [fbDemo_prox]
  simp only [Pi.zero_apply, smul_zero, sub_zero]
  exact PosDef.one

/-! ### C44: the options -/

/-- C44: any other value of `choose` raises ValueError. -/
theorem C44_unknown (pinvh : Matrix n n ℝ → Matrix n n ℝ)
    (tv : (Fin (T + 1) → ℝ) → ℝ → Fin (T + 1) → ℝ) (a : FBArgs T n) (K0 : Batch (T + 1) n)
    (h : a.choose ∉ ["gamma", "lamda", "fixed", "both"]) :
    tglForwardBackward pinvh tv a K0 = .error .value := by
  unfold tglForwardBackward
  exact if_pos h

/-- C44: the documentation of `choose` lists `'lambda'`; that spelling raises ValueError. -/
theorem C44_documented_lambda_false (pinvh : Matrix n n ℝ → Matrix n n ℝ)
    (tv : (Fin (T + 1) → ℝ) → ℝ → Fin (T + 1) → ℝ) (a : FBArgs T n) (K0 : Batch (T + 1) n)
    (h : a.choose = "lambda") : tglForwardBackward pinvh tv a K0 = .error .value :=
  C44_unknown pinvh tv a K0 (by rw [h]; decide)

theorem chooseLamdaCall_type (a : FBArgs T n) (x grad prox : Batch (T + 1) n) (gamma lamda : ℝ) :
    chooseLamdaCall a x grad prox gamma lamda = .error .type := by
  unfold chooseLamdaCall
  rw [if_neg (by decide)]

theorem fbDirection_lamda (tv : (Fin (T + 1) → ℝ) → ℝ → Fin (T + 1) → ℝ) (a : FBArgs T n)
    (it : ℕ) (s : FBState T n) (grad : Batch (T + 1) n)
    (h : a.choose = "lamda" ∨ a.choose = "both") :
    fbDirection tv a it s grad = .error .type := by
  unfold fbDirection
  have h2 : ∃ r, (if a.choose = "gamma" ∨ a.choose = "both" then
      chooseGamma tv a 200 (if it > 0 then s.gamma / a.eps else s.gamma) s.K grad s.lamda
    else .ok (s.gamma, fbProx tv a s.K grad s.gamma)) = Except.ok r := by
    split
    · exact gammaLoop_ok _ _ _ 199 _
    · exact ⟨_, rfl⟩
  obtain ⟨⟨g, y⟩, hr⟩ := h2
  simp only [hr, chooseLamdaCall_type]
  rw [if_pos h]

theorem fbDirection_ok (tv : (Fin (T + 1) → ℝ) → ℝ → Fin (T + 1) → ℝ) (a : FBArgs T n)
    (it : ℕ) (s : FBState T n) (grad : Batch (T + 1) n)
    (h : a.choose = "gamma" ∨ a.choose = "fixed") :
    ∃ g y, fbDirection tv a it s grad = .ok (g, s.lamda, y) := by
  unfold fbDirection
  have h2 : ∃ r, (if a.choose = "gamma" ∨ a.choose = "both" then
      chooseGamma tv a 200 (if it > 0 then s.gamma / a.eps else s.gamma) s.K grad s.lamda
    else .ok (s.gamma, fbProx tv a s.K grad s.gamma)) = Except.ok r := by
    split
    · exact gammaLoop_ok _ _ _ 199 _
    · exact ⟨_, rfl⟩
  obtain ⟨⟨g, y⟩, hr⟩ := h2
  refine ⟨g, y, ?_⟩
  simp only [hr]
  rw [if_neg (by rcases h with h | h <;> rw [h] <;> decide)]

theorem fbDirection_gamma (tv : (Fin (T + 1) → ℝ) → ℝ → Fin (T + 1) → ℝ) (a : FBArgs T n)
    (it : ℕ) (s : FBState T n) (grad : Batch (T + 1) n) (h : a.choose = "gamma")
    (r : ℝ × Batch (T + 1) n)
    (hr : chooseGamma tv a 200 (if it > 0 then s.gamma / a.eps else s.gamma) s.K grad s.lamda =
      .ok r) :
    fbDirection tv a it s grad = .ok (r.1, s.lamda, r.2) := by
  unfold fbDirection
  simp only [h, true_or, if_true, hr]
  rw [if_neg (by decide)]

theorem fbGradient_ok (a : FBArgs T n) (x xinv : Batch (T + 1) n) (nS : Fin (T + 1) → ℝ)
    (hn : a.nSamples = some nS) (hT : T ≠ 0) : ∃ g, fbGradient a x xinv = .ok g := by
  unfold fbGradient
  rw [hn]
  cases T with
  | zero => exact absurd rfl hT
  | succ T =>
    cases a.laplacian
    · exact ⟨_, rfl⟩
    · exact ⟨_, rfl⟩

/-- C44: `choose='lamda'` and `choose='both'` raise TypeError in the first iteration for every input
(`choose_lamda` is called with a keyword it does not have). -/
theorem C44_lamda_false (pinvh : Matrix n n ℝ → Matrix n n ℝ)
    (tv : (Fin (T + 1) → ℝ) → ℝ → Fin (T + 1) → ℝ) (a : FBArgs T n) (K0 : Batch (T + 1) n)
    (h : a.choose = "lamda" ∨ a.choose = "both") (hT : T ≠ 0) (hit : a.maxIter ≠ 0) :
    tglForwardBackward pinvh tv a K0 = .error .type := by
  unfold tglForwardBackward
  rw [if_neg (by rcases h with h | h <;> rw [h] <;> decide), if_neg (fun hc => hT hc.1)]
  obtain ⟨m, hm⟩ := Nat.exists_eq_succ_of_ne_zero hit
  rw [hm]
  unfold fbLoop fbStep
  cases hn : a.nSamples with
  | none => simp only [fbGradient, hn]
  | some nS =>
    obtain ⟨g, hg⟩ := fbGradient_ok a K0 (fun t => pinvh (K0 t)) nS hn hT
    simp only [hg]
    rw [fbDirection_lamda tv a _ _ _ h]

/-- C44: the default `n_samples=None` raises TypeError in the first iteration. -/
theorem C44_default_samples_false (pinvh : Matrix n n ℝ → Matrix n n ℝ)
    (tv : (Fin (T + 1) → ℝ) → ℝ → Fin (T + 1) → ℝ) (a : FBArgs T n) (K0 : Batch (T + 1) n)
    (h : a.choose ∈ availableChoose) (hn : a.nSamples = none) (hT : T ≠ 0)
    (hit : a.maxIter ≠ 0) : tglForwardBackward pinvh tv a K0 = .error .type := by
  unfold tglForwardBackward
  rw [if_neg (not_not.mpr h), if_neg (fun hc => hT hc.1)]
  obtain ⟨m, hm⟩ := Nat.exists_eq_succ_of_ne_zero hit
  rw [hm]
  unfold fbLoop fbStep
  simp only [fbGradient, hn]

/-- Invariants of a run: number of entries of the history and iteration counter. -/
theorem fbLoop_counts (pinvh : Matrix n n ℝ → Matrix n n ℝ)
    (tv : (Fin (T + 1) → ℝ) → ℝ → Fin (T + 1) → ℝ) (a : FBArgs T n) :
    ∀ (fuel it : ℕ) (s : FBState T n) (hist : List XF) (last : Option ℕ)
      (r : FBState T n × List XF × Bool × Option ℕ),
      fbLoop pinvh tv a fuel it s hist last = .ok r →
      ∃ m ≤ fuel, r.2.1.length = hist.length + m ∧ (r.2.2.1 = false → m = fuel) ∧
        (r.2.2.1 = true → 0 < m) ∧
        r.2.2.2 = (if m = 0 then last else some (it + m - 1)) ∧
        (0 < m → r.2.1.getLast? = some (fbObjective a r.1.K)) ∧ (m = 0 → r.1 = s ∧ r.2.1 = hist)
  | 0, it, s, hist, last, r, h => by
      unfold fbLoop at h
      injection h with h
      subst h
      exact ⟨0, le_rfl, by simp⟩
  | fuel + 1, it, s, hist, last, r, h => by
      unfold fbLoop at h
      cases hs : fbStep pinvh tv a it s with
      | error e => rw [hs] at h; simp at h
      | ok q =>
        obtain ⟨s', obj, stop⟩ := q
        have hobj : obj = fbObjective a s'.K := by
          unfold fbStep at hs
          split at hs
          · simp at hs
          · split at hs
            · simp at hs
            · injection hs with hs
              rw [Prod.mk.injEq, Prod.mk.injEq] at hs
              rw [← hs.2.1, ← hs.1]
        rw [hs] at h
        cases stop with
        | true =>
          simp only [if_true] at h
          injection h with h
          subst h
          exact ⟨1, by omega, by simp, by simp, by simp, by simp, by simp [hobj], by simp⟩
        | false =>
          simp only [Bool.false_eq_true, if_false] at h
          obtain ⟨m, hm, h1, h2, h3, h4, h5, h6⟩ :=
            fbLoop_counts pinvh tv a fuel (it + 1) s' (hist ++ [obj]) (some it) r h
          refine ⟨m + 1, by omega, ?_, ?_, ?_, ?_, ?_, ?_⟩
          · rw [h1, List.length_append, List.length_singleton]; omega
          · intro hb; rw [h2 hb]
          · intro; omega
          · rw [h4, if_neg (Nat.succ_ne_zero m)]
            by_cases hm0 : m = 0
            · rw [if_pos hm0, hm0]; rfl
            · rw [if_neg hm0]; congr 1; omega
          · intro _
            rcases Nat.eq_zero_or_pos m with hm0 | hm0
            · obtain ⟨e1, e2⟩ := h6 hm0
              rw [e2, e1, hobj]; simp
            · exact h5 hm0
          · intro h0; omega

theorem fbStep_ok (pinvh : Matrix n n ℝ → Matrix n n ℝ)
    (tv : (Fin (T + 1) → ℝ) → ℝ → Fin (T + 1) → ℝ) (a : FBArgs T n)
    (h : a.choose = "gamma" ∨ a.choose = "fixed") (nS : Fin (T + 1) → ℝ)
    (hn : a.nSamples = some nS) (hT : T ≠ 0) (it : ℕ) (s : FBState T n) :
    ∃ r, fbStep pinvh tv a it s = .ok r := by
  obtain ⟨g, hg⟩ := fbGradient_ok a s.K (fun t => pinvh (s.K t)) nS hn hT
  obtain ⟨gam, y, hd⟩ := fbDirection_ok tv a it s g h
  unfold fbStep
  simp only [hg, hd]
  exact ⟨_, rfl⟩

theorem fbLoop_ok (pinvh : Matrix n n ℝ → Matrix n n ℝ)
    (tv : (Fin (T + 1) → ℝ) → ℝ → Fin (T + 1) → ℝ) (a : FBArgs T n)
    (h : a.choose = "gamma" ∨ a.choose = "fixed") (nS : Fin (T + 1) → ℝ)
    (hn : a.nSamples = some nS) (hT : T ≠ 0) :
    ∀ (fuel it : ℕ) (s : FBState T n) (hist : List XF) (last : Option ℕ),
      ∃ r, fbLoop pinvh tv a fuel it s hist last = .ok r
  | 0, it, s, hist, last => ⟨_, rfl⟩
  | fuel + 1, it, s, hist, last => by
      obtain ⟨⟨s', obj, stop⟩, hs⟩ := fbStep_ok pinvh tv a h nS hn hT it s
      unfold fbLoop
      simp only [hs]
      cases stop
      · exact fbLoop_ok pinvh tv a h nS hn hT fuel _ _ _ _
      · exact ⟨_, rfl⟩

/-- C44: with sample counts, at least two time points and `max_iter ≥ 1`, the options `'gamma'` and
`'fixed'` always return. Missing for the full statement: `'lamda'` and `'both'`
(`C44_lamda_false`). -/
theorem C44_usable_partial (pinvh : Matrix n n ℝ → Matrix n n ℝ)
    (tv : (Fin (T + 1) → ℝ) → ℝ → Fin (T + 1) → ℝ) (a : FBArgs T n) (K0 : Batch (T + 1) n)
    (h : a.choose = "gamma" ∨ a.choose = "fixed") (nS : Fin (T + 1) → ℝ)
    (hn : a.nSamples = some nS) (hT : T ≠ 0) (hit : a.maxIter ≠ 0) :
    ∃ r, tglForwardBackward pinvh tv a K0 = .ok r := by
  unfold tglForwardBackward
  rw [if_neg (by rcases h with h | h <;> rw [h] <;> decide), if_neg (fun hc => hT hc.1)]
  obtain ⟨⟨s, hist, broke, last⟩, hr⟩ := fbLoop_ok pinvh tv a h nS hn hT a.maxIter 0
    { K := K0, gamma := a.gamma, lamda := a.lamda, maxResidual := .ninf } [fbObjective a K0] none
  rw [hr]
  obtain ⟨m, hm, h1, h2, h3, h4, -⟩ := fbLoop_counts pinvh tv a _ _ _ _ _ _ hr
  have hm0 : m ≠ 0 := by
    intro h0
    cases hb : broke with
    | true => exact absurd (h3 hb) (by omega)
    | false => exact hit (by rw [← h2 hb, h0])
  have hl : last = some (0 + m - 1) := by
    have := h4
    rw [if_neg hm0] at this
    exact this
  rw [hl]
  cases a.returnNIter <;> exact ⟨_, rfl⟩

example : (fbDemo "gamma" true (some fun _ => 1)).choose = "gamma" ∧
    (fbDemo "gamma" true (some fun _ => 1)).nSamples = some (fun _ => 1) ∧ (1 : ℕ) ≠ 0 ∧
    (fbDemo "gamma" true (some fun _ => 1)).maxIter ≠ 0 :=
  ⟨rfl, rfl, one_ne_zero, one_ne_zero⟩

/-! ### C71: a single time point -/

/-- C71: with one time point the solver raises, whatever the mode (`max_iter ≥ 1`). -/
theorem C71_single_time_false (pinvh : Matrix n n ℝ → Matrix n n ℝ)
    (tv : (Fin (0 + 1) → ℝ) → ℝ → Fin (0 + 1) → ℝ) (a : FBArgs 0 n) (K0 : Batch (0 + 1) n)
    (hn : a.nSamples ≠ none) (h : a.choose ∈ availableChoose) (hit : a.maxIter ≠ 0) :
    tglForwardBackward pinvh tv a K0 = .error .index := by
  unfold tglForwardBackward
  rw [if_neg (not_not.mpr h)]
  cases hl : a.laplacian with
  | false => rw [if_pos ⟨rfl, rfl⟩]
  | true =>
    rw [if_neg (by simp)]
    obtain ⟨m, hm⟩ := Nat.exists_eq_succ_of_ne_zero hit
    rw [hm]
    unfold fbLoop fbStep
    cases hs : a.nSamples with
    | none => exact absurd hs hn
    | some nS => simp only [fbGradient, hs, hl, if_true]

/-! ### C72: history and iteration count -/

/-- C72: the history has one entry more than iterations run, the iteration count is between 1 and
`max_iter`, it is `max_iter` when the loop did not converge, and the last entry of the history is the
objective of the returned precision. -/
theorem C72_history (pinvh : Matrix n n ℝ → Matrix n n ℝ)
    (tv : (Fin (T + 1) → ℝ) → ℝ → Fin (T + 1) → ℝ) (a : FBArgs T n) (K0 : Batch (T + 1) n)
    (r : FBResult T n) (h : tglForwardBackward pinvh tv a K0 = .ok r) (hret : a.returnNIter = true) :
    ∃ m, r.nIter = some m ∧ 1 ≤ m ∧ m ≤ a.maxIter ∧ r.history.length = m + 1 ∧
      (r.converged = false → m = a.maxIter) ∧ r.history.getLast? = some (fbObjective a r.K) ∧
      r.covariance = fun t => pinvh (r.K t) := by
  unfold tglForwardBackward at h
  split at h
  · simp at h
  · split at h
    · simp at h
    · split at h
      · simp at h
      · rename_i s hist broke last hr
        obtain ⟨m, hm, h1, h2, h3, h4, h5, h6⟩ := fbLoop_counts pinvh tv a _ _ _ _ _ _ hr
        dsimp only at h1 h2 h3 h4 h5 h6
        rw [hret] at h
        by_cases hm0 : m = 0
        · rw [if_pos hm0] at h4
          rw [h4] at h
          simp at h
        · rw [if_neg hm0] at h4
          rw [h4] at h
          simp only at h
          injection h with h
          subst h
          refine ⟨m, ?_, by omega, hm, ?_, h2, h5 (by omega), rfl⟩
          · simp; omega
          · rw [h1]; simp; omega

/-! ### C45: steps keep positive definiteness -/

/-- C45: the update is a convex combination, so it is positive definite when the iterate and the
proximal point are, for every real `lamda`. -/
theorem C45_posDef (lamda : ℝ) {K y : Batch (T + 1) n} (hK : ∀ t, (K t).PosDef)
    (hy : ∀ t, (y t).PosDef) (t : Fin (T + 1)) : (fbUpdate lamda K y t).PosDef := by
  have h0 : 0 ≤ min (max lamda 0) 1 := le_min (le_max_right _ _) zero_le_one
  have h1 : min (max lamda 0) 1 ≤ 1 := min_le_right _ _
  set c := min (max lamda 0) 1
  have e : fbUpdate lamda K y t = (1 - c) • K t + c • y t := by
    change K t + c • (y t - K t) = _
    rw [smul_sub, sub_smul, one_smul]; abel
  rw [e]
  rcases eq_or_lt_of_le h0 with hc | hc
  · rw [← hc, sub_zero, one_smul, zero_smul, add_zero]; exact hK t
  · exact PosDef.posSemidef_add ((hK t).posSemidef.smul (sub_nonneg.mpr h1)) ((hy t).smul hc)

/-- C45: outside `[0, 1]` the step is clipped. -/
theorem C45_clip (lamda : ℝ) (K y : Batch (T + 1) n) :
    (lamda ≤ 0 → fbUpdate lamda K y = K) ∧ (1 ≤ lamda → fbUpdate lamda K y = y) ∧
      (0 ≤ lamda → lamda ≤ 1 → fbUpdate lamda K y = K + lamda • (y - K)) := by
  unfold fbUpdate
  refine ⟨fun h => ?_, fun h => ?_, fun h0 h1 => ?_⟩
  · rw [max_eq_right h, min_eq_left zero_le_one, zero_smul, add_zero]
  · rw [max_eq_left (by linarith), min_eq_right h, one_smul, add_sub_cancel]
  · rw [max_eq_left h0, min_eq_left h1]

example : ∃ K y : Batch 2 (Fin 2), (∀ t, (K t).PosDef) ∧ (∀ t, (y t).PosDef) ∧ K ≠ y :=
  ⟨fun _ => 1, fun _ => (2 : ℝ) • 1, fun _ => PosDef.one, fun _ => PosDef.one.smul two_pos, by
    intro h
    have := congrFun (congrFun (congrFun h 0) 0) 0
    norm_num at this⟩

/-! ### C67: the gradient -/

theorem laplacianAux_eq (x : Batch (T + 2) n) (t : Fin (T + 2)) :
    laplacianAux x t = padFirst (fun p => x p.succ - x p.castSucc) t
      - padLast (fun p => x p.succ - x p.castSucc) t := by
  unfold laplacianAux
  by_cases h0 : t = 0
  · subst h0
    rw [if_pos rfl]
    have e1 : padFirst (fun p : Fin (T + 1) => x p.succ - x p.castSucc) 0 = 0 := by simp [padFirst]
    have e2 : padLast (fun p : Fin (T + 1) => x p.succ - x p.castSucc) 0 = x 1 - x 0 := by
      have : (0 : Fin (T + 2)) = Fin.castSucc 0 := rfl
      conv_lhs => rw [this]
      unfold padLast
      rw [Fin.snoc_castSucc]
      rfl
    rw [e1, e2]; abel
  · rw [if_neg h0]
    by_cases hl : t = Fin.last (T + 1)
    · subst hl
      rw [if_pos rfl]
      have e1 : padLast (fun p : Fin (T + 1) => x p.succ - x p.castSucc) (Fin.last (T + 1)) = 0 := by
        simp [padLast]
      have e2 : padFirst (fun p : Fin (T + 1) => x p.succ - x p.castSucc) (Fin.last (T + 1)) =
          x (Fin.last (T + 1)) - x (Fin.last T).castSucc := by
        have : Fin.last (T + 1) = Fin.succ (Fin.last T) := rfl
        conv_lhs => rw [this]
        unfold padFirst
        rw [Fin.cons_succ]
        rfl
      rw [e1, e2, sub_zero]
    · rw [if_neg hl]
      obtain ⟨p, rfl⟩ := Fin.exists_castSucc_eq.mpr hl
      have hp0 : p ≠ 0 := fun h => h0 (by rw [h]; rfl)
      obtain ⟨q, hq⟩ := Fin.exists_succ_eq.mpr hp0
      have e1 : padLast (fun p : Fin (T + 1) => x p.succ - x p.castSucc) p.castSucc =
          x p.succ - x p.castSucc := by
        unfold padLast; rw [Fin.snoc_castSucc]
      have hq2 : (q.castSucc).succ = p.castSucc := by rw [← hq]; rfl
      have e2 : padFirst (fun p : Fin (T + 1) => x p.succ - x p.castSucc) p.castSucc =
          x p.castSucc - x q.castSucc.castSucc := by
        conv_lhs => rw [← hq2]
        unfold padFirst; rw [Fin.cons_succ, hq2]
      have e3 : p.castSucc + 1 = p.succ := by
        exact Fin.coeSucc_eq_succ
      have e4 : p.castSucc - 1 = q.castSucc.castSucc := by
        rw [← hq2, ← Fin.coeSucc_eq_succ, add_sub_cancel_right]
      rw [e1, e2, e3, e4, two_smul]
      abel

/-- C67: at positive definite matrices the loss evaluated by the code is the documented smooth
part. -/
theorem C67_loss_value (a : FBArgs T n) {K : Batch (T + 1) n} (hK : ∀ t, (K t).PosDef) :
    fbLoss a K = .fin (smoothTime a.empCov a.samples a.vareps (modeBeta a) K) :=
  fbLoss_pos a fun t => (hK t).det_pos

/-- Inner product of the computed gradient with a direction. -/
theorem fbGradient_inner (a : FBArgs T n) (nS : Fin (T + 1) → ℝ) (hn : a.nSamples = some nS)
    (K xinv g : Batch (T + 1) n) (h : fbGradient a K xinv = .ok g) (V : Batch (T + 1) n) :
    seqInner g V = ∑ t, nS t * (frobInner (a.empCov t) (V t) - frobInner (xinv t) (V t))
      + a.vareps * seqInner K V + 2 * modeBeta a * ∑ p : Fin T,
        frobInner (K p.succ - K p.castSucc) (V p.succ - V p.castSucc) := by
  have h1 : seqInner (gradLoss a.empCov nS a.vareps K xinv) V =
      ∑ t, nS t * (frobInner (a.empCov t) (V t) - frobInner (xinv t) (V t))
      + a.vareps * seqInner K V := by
    unfold seqInner gradLoss
    rw [Finset.mul_sum, ← Finset.sum_add_distrib]
    refine Finset.sum_congr rfl fun t _ => ?_
    rw [frobInner_add_left, frobInner_smul_left, frobInner_smul_left, frobInner_sub_left]
  unfold fbGradient at h
  rw [hn] at h
  unfold modeBeta
  cases hl : a.laplacian with
  | false =>
    simp only [hl, Bool.false_eq_true, if_false] at h ⊢
    injection h with h
    rw [← h, h1]; ring
  | true =>
    cases T with
    | zero => simp [hl] at h
    | succ T =>
      simp only [hl, if_true] at h ⊢
      injection h with h
      rw [← h, seqInner_add_left, h1, seqInner_smul_left]
      congr 1
      rw [mul_assoc, mul_assoc]
      congr 2
      have e : seqInner (laplacianAux K) V =
          ∑ t, frobInner (padFirst (fun p => K p.succ - K p.castSucc) t) (V t)
          - ∑ t, frobInner (padLast (fun p => K p.succ - K p.castSucc) t) (V t) := by
        unfold seqInner
        rw [← Finset.sum_sub_distrib]
        refine Finset.sum_congr rfl fun t _ => ?_
        rw [laplacianAux_eq, frobInner_sub_left]
      rw [e, sum_padFirst, sum_padLast, ← Finset.sum_sub_distrib]
      refine Finset.sum_congr rfl fun p _ => ?_
      rw [frobInner_sub_right]

/-- C67: the computed gradient is the derivative of the smooth part in every direction, in both
modes, at every sequence of positive definite matrices (`pinvh` inverts them). -/
theorem C67_gradient (pinvh : Matrix n n ℝ → Matrix n n ℝ) (a : FBArgs T n) (nS : Fin (T + 1) → ℝ)
    (hn : a.nSamples = some nS) {K : Batch (T + 1) n} (hK : ∀ t, (K t).PosDef)
    (hp : ∀ t, pinvh (K t) = (K t)⁻¹) (g : Batch (T + 1) n)
    (h : fbGradient a K (fun t => pinvh (K t)) = .ok g) (V : Batch (T + 1) n) :
    HasDerivAt (fun s : ℝ => smoothTime a.empCov nS a.vareps (modeBeta a) (K + s • V))
      (seqInner g V) 0 := by
  rw [fbGradient_inner a nS hn K _ g h V]
  simp only [hp]
  exact hasDerivAt_smoothTime a.empCov nS a.vareps (modeBeta a) hK V

example : ∃ (K : Batch 2 (Fin 2)) (g : Batch 2 (Fin 2)) (a : FBArgs 1 (Fin 2)),
    (∀ t, (K t).PosDef) ∧ a.laplacian = true ∧ a.nSamples = some (fun _ => 3) ∧
      fbGradient a K (fun t => (K t)⁻¹) = .ok g :=
  ⟨fun _ => 1, _, ⟨fun _ => 1, 1, 1, 1, some fun _ => 3, 0, 0, 1, 1, 1 / 2, false, true, "gamma", "b",
    0, none, 0, true⟩, fun _ => PosDef.one, rfl, rfl, rfl⟩

/-! ### C68: sufficient decrease -/

/-- C68: an admissible step in mode `'gamma'` decreases the penalised objective by at least
`lamda (1 - delta)/gamma ‖y - x‖²`; the new objective is finite. -/
theorem C68_descent {tv : (Fin (T + 1) → ℝ) → ℝ → Fin (T + 1) → ℝ} (htv : IsTVSolver tv)
    (a : FBArgs T n) (ha : 0 ≤ a.alpha) (hb : 0 ≤ a.beta) (hn : ∀ t, 0 < a.samples t)
    {gamma lamda : ℝ} (hg : 0 < gamma) (hl0 : 0 ≤ lamda) (hl1 : lamda ≤ 1)
    (x grad : Batch (T + 1) n) (F : ℝ) (hF : fbObjective a x = .fin F)
    (hacc : Admissible "gamma" (fbLoss a) x grad lamda a.delta gamma (fbProx tv a x grad gamma)) :
    ∃ F', fbObjective a (fbUpdate lamda x (fbProx tv a x grad gamma)) = .fin F' ∧
      F' + lamda * (1 - a.delta) / gamma * seqSq (fbProx tv a x grad gamma - x) ≤ F := by
  have hprox := fbProx_ineq htv a ha hb x grad hg
  have hdrop := hprox.drop hg
  set y := fbProx tv a x grad gamma with hy
  rw [((C45_clip lamda x y).2.2 hl0 hl1)]
  have hconv := modePenalty_convex a ha hb x y lamda hl0 hl1
  unfold Admissible at hacc
  rw [if_pos rfl] at hacc
  unfold fbObjective at hF ⊢
  rw [fbPenalty_eq] at hF ⊢
  rcases fbLoss_ge a hn x with ⟨fx, hfx⟩ | hfx <;> rw [hfx] at hF hacc
  swap
  · simp [XF.add] at hF
  rcases fbLoss_ge a hn (x + lamda • (y - x)) with ⟨f1, hf1⟩ | hf1 <;> rw [hf1] at hacc
  swap
  · simp [XF.sub, XF.add, XF.neg, xfLe] at hacc
  simp only [XF.add, XF.fin.injEq] at hF
  simp only [XF.sub, XF.add, XF.neg, xfLe] at hacc
  refine ⟨f1 + modePenalty a (x + lamda • (y - x)), by rw [hf1]; rfl, ?_⟩
  have h2 := mul_le_mul_of_nonneg_left hdrop hl0
  have e : lamda * (1 - a.delta) / gamma * seqSq (y - x) =
      lamda * (1 / gamma * seqSq (y - x)) - lamda * (a.delta / gamma * seqSq (y - x)) := by
    field_simp
  rw [e]
  linarith

/-- C68 for a whole iteration: in mode `'gamma'`, unless the 200 trials are exhausted, the objective
recorded by the iteration is finite and not above the previous one. -/
theorem C68_iteration {tv : (Fin (T + 1) → ℝ) → ℝ → Fin (T + 1) → ℝ} (htv : IsTVSolver tv)
    (pinvh : Matrix n n ℝ → Matrix n n ℝ) (a : FBArgs T n) (hc : a.choose = "gamma")
    (ha : 0 ≤ a.alpha) (hb : 0 ≤ a.beta) (hn : ∀ t, 0 < a.samples t) (hd : a.delta ≤ 1)
    (he : 0 < a.eps) (it : ℕ) (s s' : FBState T n) (hg : 0 < s.gamma) (hl0 : 0 ≤ s.lamda)
    (hl1 : s.lamda ≤ 1) (obj : XF) (stop : Bool)
    (hstep : fbStep pinvh tv a it s = .ok (s', obj, stop)) (F : ℝ)
    (hF : fbObjective a s.K = .fin F)
    (hfound : ∃ grad, fbGradient a s.K (fun t => pinvh (s.K t)) = .ok grad ∧ ∃ j < 200,
      Admissible "gamma" (fbLoss a) s.K grad s.lamda a.delta
        ((if it > 0 then s.gamma / a.eps else s.gamma) * a.eps ^ j)
        (fbProx tv a s.K grad ((if it > 0 then s.gamma / a.eps else s.gamma) * a.eps ^ j))) :
    0 < s'.gamma ∧ s'.lamda = s.lamda ∧ obj = fbObjective a s'.K ∧
      ∃ F', obj = .fin F' ∧ F' ≤ F := by
  obtain ⟨grad, hgrad, j, hj, hadm⟩ := hfound
  set g0 := (if it > 0 then s.gamma / a.eps else s.gamma) with hg0
  have hg0pos : 0 < g0 := by
    rw [hg0]; split
    · exact div_pos hg he
    · exact hg
  have hfirst : ∃ j < 200, chooseGamma tv a 200 g0 s.K grad s.lamda =
      .ok (g0 * a.eps ^ j, fbProx tv a s.K grad (g0 * a.eps ^ j)) ∧
      Admissible "gamma" (fbLoss a) s.K grad s.lamda a.delta (g0 * a.eps ^ j)
        (fbProx tv a s.K grad (g0 * a.eps ^ j)) := by
    rcases gammaLoop_cases (fbProx tv a s.K grad)
      (gammaAccept a.choose (fbLoss a) s.K grad s.lamda a.delta) a.eps 200 g0 with
      ⟨i, hi, h1, h2⟩ | hno
    · refine ⟨i, hi, gammaLoop_first _ _ _ _ _ none i hi h1 h2, ?_⟩
      rw [gammaAccept_iff, hc] at h1
      exact h1
    · have := hno j hj
      rw [hc] at this
      rw [(gammaAccept_iff _ _ _ _ _ _ _ _).mpr hadm] at this
      exact absurd this (by simp)
  obtain ⟨i, hi, hch, hadm'⟩ := hfirst
  have hdir : fbDirection tv a it s grad =
      .ok (g0 * a.eps ^ i, s.lamda, fbProx tv a s.K grad (g0 * a.eps ^ i)) := by
    exact fbDirection_gamma tv a it s grad hc _ hch
  unfold fbStep at hstep
  simp only [hgrad, hdir] at hstep
  injection hstep with hstep
  rw [Prod.mk.injEq, Prod.mk.injEq] at hstep
  obtain ⟨e1, e2, -⟩ := hstep
  have hgp : 0 < g0 * a.eps ^ i := mul_pos hg0pos (pow_pos he i)
  obtain ⟨F', hF', hle⟩ := C68_descent htv a ha hb hn hgp hl0 hl1 s.K grad F hF hadm'
  subst e1
  refine ⟨hgp, rfl, e2.symm, F', by rw [← e2]; exact hF', ?_⟩
  have : 0 ≤ s.lamda * (1 - a.delta) / (g0 * a.eps ^ i)
      * seqSq (fbProx tv a s.K grad (g0 * a.eps ^ i) - s.K) :=
    mul_nonneg (div_nonneg (mul_nonneg hl0 (sub_nonneg.mpr hd)) hgp.le) (seqSq_nonneg _)
  linarith

/-- The hypotheses of `C68_descent` are met: at a fixed point every step is admissible. -/
example (tv : (Fin 2 → ℝ) → ℝ → Fin 2 → ℝ) :
    Admissible "gamma" (fbLoss (fbDemo "gamma" true none)) (fun _ => 1) 0 1 (1 / 2) 1
      (fbProx tv (fbDemo "gamma" true none) (fun _ => 1) 0 1) ∧
    fbObjective (fbDemo "gamma" true none) (fun _ => 1) =
      .fin (smoothTime (fun _ => 1) (fun _ => 1) 0 0 (fun _ : Fin 2 => (1 : Matrix (Fin 1) (Fin 1) ℝ))
        + sparsePenalty 0 (fun _ : Fin 2 => (1 : Matrix (Fin 1) (Fin 1) ℝ))) := by
  have hx : fbProx tv (fbDemo "gamma" true none) (fun _ => 1) 0 1 = fun _ => 1 := by
    funext t
    rw [fbDemo_prox]; simp
  have hl := C67_loss_value (fbDemo "gamma" true none) (K := fun _ => 1) (fun _ => PosDef.one)
  constructor
  · rw [hx]
    unfold Admissible
    rw [if_pos rfl, sub_self, smul_zero, add_zero, hl]
    simp [XF.sub, XF.add, XF.neg, xfLe, seqInner, seqSq, frobInner]
  · unfold fbObjective
    rw [hl, fbPenalty_eq]
    rfl

/-! ### C69: fixed points -/

theorem fbGradient_symm (a : FBArgs T n) (K xinv g : Batch (T + 1) n)
    (h : fbGradient a K xinv = .ok g) (hS : ∀ t, (a.empCov t).IsSymm) (hK : ∀ t, (K t).IsSymm)
    (hx : ∀ t, (xinv t).IsSymm) (t : Fin (T + 1)) : (g t).IsSymm := by
  unfold fbGradient at h
  cases hn : a.nSamples with
  | none => rw [hn] at h; simp at h
  | some nS =>
    have h1 : ∀ t, (gradLoss a.empCov nS a.vareps K xinv t).IsSymm := fun t =>
      (((hS t).sub (hx t)).smul _).add ((hK t).smul _)
    rw [hn] at h
    cases hl : a.laplacian with
    | false =>
      simp only [hl, Bool.false_eq_true, if_false] at h
      injection h with h
      rw [← h]; exact h1 t
    | true =>
      cases T with
      | zero => simp [hl] at h
      | succ T =>
        simp only [hl, if_true] at h
        injection h with h
        rw [← h]
        refine (h1 t).add (IsSymm.smul (A := laplacianAux K t) ?_ (2 * a.beta))
        unfold laplacianAux
        split
        · exact (hK _).sub (hK _)
        · split
          · exact (hK _).sub (hK _)
          · exact (((hK _).smul _).sub (hK _)).sub (hK _)

/-- C69: a sequence of positive definite matrices is left unchanged by a forward-backward step (any
step size, any relaxation `lamda > 0`) iff it minimises the documented objective of the mode, and the
minimiser is then unique. -/
theorem C69_fixed_iff_optimal {tv : (Fin (T + 1) → ℝ) → ℝ → Fin (T + 1) → ℝ} (htv : IsTVSolver tv)
    (pinvh : Matrix n n ℝ → Matrix n n ℝ) (a : FBArgs T n) (nS : Fin (T + 1) → ℝ)
    (hn : a.nSamples = some nS) (hpos : ∀ t, 0 < nS t) (hS : ∀ t, (a.empCov t).IsSymm)
    (ha : 0 ≤ a.alpha) (hb : 0 ≤ a.beta) (hv : 0 ≤ a.vareps) {K : Batch (T + 1) n}
    (hK : ∀ t, (K t).PosDef) (hp : ∀ t, pinvh (K t) = (K t)⁻¹) (g : Batch (T + 1) n)
    (h : fbGradient a K (fun t => pinvh (K t)) = .ok g) {gamma lamda : ℝ} (hg : 0 < gamma)
    (hl : 0 < lamda) :
    fbUpdate lamda K (fbProx tv a K g gamma) = K ↔
      UniqueMin {X : Batch (T + 1) n | ∀ t, (X t).PosDef}
        (fun X => smoothTime a.empCov nS a.vareps (modeBeta a) X + modePenalty a X) K := by
  have hprox := fbProx_ineq htv a ha hb K g hg
  have hmb : 0 ≤ modeBeta a := by unfold modeBeta; split <;> simp [hb]
  have hfix : fbUpdate lamda K (fbProx tv a K g gamma) = K ↔ fbProx tv a K g gamma = K := by
    unfold fbUpdate
    have hc : min (max lamda 0) 1 ≠ 0 := (lt_min (lt_max_of_lt_left hl) one_pos).ne'
    constructor
    · intro h
      have : min (max lamda 0) 1 • (fbProx tv a K g gamma - K) = 0 := by
        rw [← add_sub_cancel_left K (_ • _), h, sub_self]
      exact sub_eq_zero.mp ((smul_eq_zero.mp this).resolve_left hc)
    · intro h
      rw [h, sub_self, smul_zero, add_zero]
  rw [hfix]
  constructor
  · intro hy
    rw [hy] at hprox
    refine ⟨hK, fun Z hZ hne => ?_⟩
    have h1 := smoothTime_lt a.empCov hpos hv hmb hK hZ hne
    have h2 := fbGradient_inner a nS hn K _ g h (Z - K)
    simp only [hp] at h2
    rw [← h2] at h1
    have h3 := hprox Z
    have e : seqInner (K - gamma • g - K) (Z - K) = -(gamma * seqInner g (Z - K)) := by
      rw [sub_sub_cancel_left, seqInner_neg_left, seqInner_smul_left]
    rw [e] at h3
    have h4 : gamma * (modePenalty a K - seqInner g (Z - K)) ≤ gamma * modePenalty a Z := by
      linarith
    have h5 := le_of_mul_le_mul_left h4 hg
    change smoothTime a.empCov nS a.vareps (modeBeta a) K + modePenalty a K <
      smoothTime a.empCov nS a.vareps (modeBeta a) Z + modePenalty a Z
    linarith
  · intro hmin
    have hsub := subgrad_of_isMin a ha hb _ g
      (fbGradient_symm a K _ g h hS (fun t => (hK t).isSymm') fun t => by
        rw [hp]; exact PosDef.isSymm' (hK t).inv)
      (C67_gradient pinvh a nS hn hK hp g h) hmin.isMin
    refine (hprox.eq ?_).symm
    intro Z
    have e : seqInner (K - gamma • g - K) (Z - K) = -(gamma * seqInner g (Z - K)) := by
      rw [sub_sub_cancel_left, seqInner_neg_left, seqInner_smul_left]
    rw [e]
    have := mul_le_mul_of_nonneg_left (hsub Z) hg.le
    linarith

/-- Non-trivial case: data with identity covariance, where the identity is the fixed point. -/
example (tv : (Fin 2 → ℝ) → ℝ → Fin 2 → ℝ) : ∃ g,
    fbGradient (fbDemo "fixed" true (some fun _ => 1)) (fun _ => 1)
      (fun _ => (1 : Matrix (Fin 1) (Fin 1) ℝ)⁻¹) = .ok g ∧
    fbUpdate 1 (fun _ => 1) (fbProx tv (fbDemo "fixed" true (some fun _ => 1)) (fun _ => 1) g 1) =
      fun _ => 1 := by
  refine ⟨0, ?_, ?_⟩
  · unfold fbGradient
    simp only [fbDemo, if_true]
    congr 1
    funext t
    rw [Pi.add_apply]
    unfold gradLoss laplacianAux
    simp
  · rw [(C45_clip 1 _ _).2.1 le_rfl]
    funext t
    rw [fbDemo_prox]; simp

/-! ### C70: positive definiteness along a run -/

/-- Two features, two time points, empirical covariances `c I`. -/
noncomputable def fbPair (c alpha beta : ℝ) : FBArgs 1 (Fin 2) where
  empCov := fun _ => c • 1
  alpha := alpha
  beta := beta
  maxIter := 1
  nSamples := some fun _ => 1
  tol := 0
  delta := 1 / 10000
  gamma := 1
  lamda := 1
  eps := 1 / 2
  choose := "gamma"
  vareps := 0
  stopWhen := 0
  laplacian := true

theorem fbPair_prox (c alpha beta b d : ℝ) (ha : 0 ≤ alpha) (tv : (Fin 2 → ℝ) → ℝ → Fin 2 → ℝ) :
    fbProx tv (fbPair c alpha beta) (fun _ => b • 1) (fun _ => d • 1) 1 = fun _ => (b - d) • 1 := by
  unfold fbProx
  have : (fbPair c alpha beta).laplacian = true := rfl
  rw [if_pos this]
  funext t
  ext i j
  rw [softOff_apply]
  by_cases hij : i = j
  · rw [if_pos hij, softScalar_zero_right]
    simp [hij]
  · rw [if_neg hij, softScalar_of_abs_le]
    · simp [hij]
    · simp [hij]
      exact ha

theorem fbPair_gradient (c alpha beta b d : ℝ) :
    fbGradient (fbPair c alpha beta) (fun _ => b • 1) (fun _ => d • 1) = .ok fun _ => (c - d) • 1 := by
  unfold fbGradient
  simp only [fbPair, if_true]
  congr 1
  funext t
  rw [Pi.add_apply]
  have : laplacianAux (fun _ : Fin 2 => b • (1 : Matrix (Fin 2) (Fin 2) ℝ)) = 0 := by
    funext t
    unfold laplacianAux
    split
    · simp
    · split
      · simp
      · rw [two_smul]; simp
  rw [this]
  unfold gradLoss
  simp [sub_smul]

theorem fbPair_det (b : ℝ) : (b • (1 : Matrix (Fin 2) (Fin 2) ℝ)).det = b ^ 2 := by
  rw [Matrix.det_smul, Matrix.det_one, Fintype.card_fin, mul_one]

theorem fbPair_loss (c alpha beta b : ℝ) (hb : b ≠ 0) :
    fbLoss (fbPair c alpha beta) (fun _ => b • 1) =
      .fin (2 * (2 * (c * b)) - 2 * Real.log (b ^ 2)) := by
  rw [fbLoss_pos _ (fun t => by rw [fbPair_det]; positivity)]
  congr 1
  unfold smoothTime
  simp only [fbPair_det, sub_self, frobSq_zero]
  simp only [fbPair, FBArgs.samples, Option.getD_some, frobInner, Fin.sum_univ_two]
  simp
  ring

theorem fbPair_run (c alpha beta b d : ℝ) (ha : 0 ≤ alpha) (tv : (Fin 2 → ℝ) → ℝ → Fin 2 → ℝ)
    (pinvh : Matrix (Fin 2) (Fin 2) ℝ → Matrix (Fin 2) (Fin 2) ℝ) (hp : pinvh (b • 1) = d • 1)
    (hacc : Admissible "gamma" (fbLoss (fbPair c alpha beta)) (fun _ => b • 1)
      (fun _ => (c - d) • 1) 1 (1 / 10000) 1 (fun _ => (b - (c - d)) • 1)) :
    ∃ r, tglForwardBackward pinvh tv (fbPair c alpha beta) (fun _ => b • 1) = .ok r ∧
      r.K = fun _ => (b - (c - d)) • 1 := by
  have hch : chooseGamma tv (fbPair c alpha beta) 200 1 (fun _ => b • 1) (fun _ => (c - d) • 1) 1 =
      .ok (1, fun _ => (b - (c - d)) • 1) := by
    have := C43_first_admissible tv (fbPair c alpha beta) 200 1 (fun _ => b • 1)
      (fun _ => (c - d) • 1) 1 0 (by norm_num)
      (by rw [pow_zero, mul_one, fbPair_prox _ _ _ _ _ ha]; exact hacc) (fun i hi => by omega)
    rw [pow_zero, mul_one, fbPair_prox _ _ _ _ _ ha] at this
    exact this
  have hstep : ∃ q, fbStep pinvh tv (fbPair c alpha beta) 0
      { K := fun _ => b • 1, gamma := 1, lamda := 1, maxResidual := .ninf } = .ok q ∧
      q.1.K = fun _ => (b - (c - d)) • 1 := by
    unfold fbStep
    simp only [hp, fbPair_gradient]
    have hdir : fbDirection tv (fbPair c alpha beta) 0
        { K := fun _ => b • 1, gamma := 1, lamda := 1, maxResidual := .ninf }
        (fun _ => (c - d) • 1) = .ok (1, 1, fun _ => (b - (c - d)) • 1) := by
      refine fbDirection_gamma tv _ 0 _ _ rfl (1, fun _ => (b - (c - d)) • 1) ?_
      rw [if_neg (lt_irrefl 0)]
      exact hch
    simp only [hdir]
    refine ⟨_, rfl, ?_⟩
    exact (C45_clip 1 _ _).2.1 le_rfl
  obtain ⟨⟨s', obj, stop⟩, hs, hK⟩ := hstep
  unfold tglForwardBackward
  have hc : (fbPair c alpha beta).choose = "gamma" := rfl
  rw [if_neg (by rw [hc]; decide),
    if_neg (fun h => absurd h.1 one_ne_zero)]
  have hm : (fbPair c alpha beta).maxIter = 1 := rfl
  rw [hm]
  unfold fbLoop
  have hg : (fbPair c alpha beta).gamma = 1 := rfl
  have hla : (fbPair c alpha beta).lamda = 1 := rfl
  rw [hg, hla, hs]
  cases stop
  · exact ⟨_, rfl, hK⟩
  · exact ⟨_, rfl, hK⟩

/-- C70: starting from the identity (a valid `init` array) with `S_t = 4 I`, the first step accepted in
mode `'gamma'` is `-2 I` at every time point, for every `alpha ≥ 0` and `beta`: the returned precision
is negative definite. -/
theorem C70_identity_start_false (alpha beta : ℝ) (ha : 0 ≤ alpha)
    (tv : (Fin 2 → ℝ) → ℝ → Fin 2 → ℝ)
    (pinvh : Matrix (Fin 2) (Fin 2) ℝ → Matrix (Fin 2) (Fin 2) ℝ) (hp : pinvh 1 = 1) :
    ∃ r, tglForwardBackward pinvh tv (fbPair 4 alpha beta) (fun _ => 1) = .ok r ∧
      r.K = (fun _ => (-2 : ℝ) • 1) ∧ ∀ t, ¬ (r.K t).PosDef := by
  have h := fbPair_run 4 alpha beta 1 1 ha tv pinvh (by rw [one_smul]; exact hp) (by
    unfold Admissible
    rw [if_pos rfl]
    have e : ((fun _ => (1 : ℝ) • 1) + (1 : ℝ) • ((fun _ => ((1 : ℝ) - (4 - 1)) • 1) - fun _ => (1 : ℝ) • 1) :
        Batch 2 (Fin 2)) = fun _ => (-2 : ℝ) • 1 := by
      rw [one_smul ℝ (_ - _ : Batch 2 (Fin 2)), add_sub_cancel]
      norm_num
    rw [e, fbPair_loss _ _ _ _ (by norm_num), fbPair_loss _ _ _ _ one_ne_zero]
    have hlog : 0 ≤ Real.log ((-2 : ℝ) ^ 2) := Real.log_nonneg (by norm_num)
    simp only [XF.sub, XF.add, XF.neg, xfLe]
    simp [seqInner, seqSq, frobInner, frobSq, Fin.sum_univ_two] at hlog ⊢
    norm_num at hlog ⊢
    linarith)
  obtain ⟨r, h1, h2⟩ := h
  rw [one_smul] at h1
  have h3 : r.K = fun _ => (-2 : ℝ) • 1 := by rw [h2]; norm_num
  refine ⟨r, h1, h3, fun t hc => ?_⟩
  have := hc.diag_pos (i := 0)
  rw [h3] at this
  norm_num at this

/-- C70: the documented `init='zero'` with identity covariances: the loss at zero is plus infinity, so
any point with positive determinants is accepted, here `-I`. -/
theorem C70_zero_start_false (alpha beta : ℝ) (ha : 0 ≤ alpha)
    (tv : (Fin 2 → ℝ) → ℝ → Fin 2 → ℝ)
    (pinvh : Matrix (Fin 2) (Fin 2) ℝ → Matrix (Fin 2) (Fin 2) ℝ) (hp : pinvh 0 = 0) :
    ∃ r, tglForwardBackward pinvh tv (fbPair 1 alpha beta) (fun _ => 0) = .ok r ∧
      r.K = (fun _ => (-1 : ℝ) • 1) ∧ ∀ t, ¬ (r.K t).PosDef := by
  have h := fbPair_run 1 alpha beta 0 0 ha tv pinvh (by rw [zero_smul]; exact hp) (by
    unfold Admissible
    rw [if_pos rfl]
    have e : ((fun _ => (0 : ℝ) • 1) + (1 : ℝ) • ((fun _ => ((0 : ℝ) - (1 - 0)) • 1) - fun _ => (0 : ℝ) • 1) :
        Batch 2 (Fin 2)) = fun _ => (-1 : ℝ) • 1 := by
      rw [one_smul ℝ (_ - _ : Batch 2 (Fin 2)), add_sub_cancel]
      norm_num
    rw [e, fbPair_loss _ _ _ _ (by norm_num)]
    have hinf : fbLoss (fbPair 1 alpha beta) (fun _ => (0 : ℝ) • 1) = .pinf := by
      have h1 : tglLoss (fbPair 1 alpha beta).empCov (fun _ => (0 : ℝ) • 1)
          (fbPair 1 alpha beta).samples = .pinf := by
        have h2 : ∀ t : Fin 2, XF.mul (.fin (-(fbPair 1 alpha beta).samples t))
            (XF.sub (logdetXF ((0 : ℝ) • (1 : Matrix (Fin 2) (Fin 2) ℝ)))
              (.fin (∑ i, ∑ j, (fbPair 1 alpha beta).empCov t i j * ((0 : ℝ) • (1 : Matrix (Fin 2) (Fin 2) ℝ)) i j))) = .pinf := by
          intro t
          have hs : (fbPair 1 alpha beta).samples t = 1 := rfl
          unfold logdetXF
          rw [fbPair_det, if_neg (by norm_num), hs]
          simp [XF.sub, XF.add, XF.neg, XF.mul]
        unfold tglLoss XF.sum
        simp only [h2]
        rfl
      unfold fbLoss
      rw [h1]
      rfl
    rw [hinf]
    simp [XF.sub, XF.add, XF.neg, xfLe])
  obtain ⟨r, h1, h2⟩ := h
  rw [zero_smul] at h1
  have h3 : r.K = fun _ => (-1 : ℝ) • 1 := by rw [h2]; norm_num
  refine ⟨r, h1, h3, fun t hc => ?_⟩
  have := hc.diag_pos (i := 0)
  rw [h3] at this
  norm_num at this

end Verif.Props
