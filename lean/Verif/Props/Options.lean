import Verif.Model.OptionTable
import Mathlib.Tactic.Linarith
import Mathlib.Tactic.Common
import Mathlib.Algebra.Order.Ring.Int

/-! Properties of the constructors of the estimators (C129), of the options handed to the solvers (C130) and of repeated
fits (C131). -/

namespace Verif.Props

open Verif.Model Verif.Model.OptionTable

set_option autoImplicit false
set_option linter.unusedSectionVars false

variable {V : Type}

/-! ### Helper: where an attribute comes from -/

/-- Where the value of an attribute comes from. -/
inductive Origin where
  | param (p : String)
  | dflt (cls p : String)
  | absent
  | other
  deriving DecidableEq

/-- Follow an attribute through the chain of constructors. -/
def origin : Cls → String → Origin
  | .none, _ => .absent
  | .ext _ ps, a => if a ∈ ps then .param a else .absent
  | .sub _ parent _ sa own, a =>
      match own.lookup a with
      | some (.param p) => .param p
      | some (.code _) => .other
      | Option.none =>
          match origin parent a with
          | .param q =>
              match sa.lookup q with
              | some (.param p) => .param p
              | some (.code _) => .other
              | Option.none => .dflt parent.name q
          | o => o

/-- No constructor of the chain hands an unknown keyword to its parent. -/
def constructible : Cls → Bool
  | .none => true
  | .ext _ _ => true
  | .sub _ parent _ sa _ => sa.all (fun q => q.1 ∈ parent.params) && constructible parent

/-- The value an origin stands for. -/
def Origin.holds (I : Interp V) (env : String → V) (v : Option V) : Origin → Prop
  | .param p => v = some (env p)
  | .dflt c p => v = some (I.dflt c p)
  | .absent => v = Option.none
  | .other => True

theorem construct_sound (I : Interp V) (c : Cls) (env : String → V) (hc : constructible c = true) :
    ∃ attrs, c.construct I env = some attrs ∧ ∀ a, (origin c a).holds I env (attrs a) := by
  induction c generalizing env with
  | none => exact ⟨_, rfl, fun a => rfl⟩
  | ext n ps =>
      refine ⟨_, rfl, fun a => ?_⟩
      simp only [origin]
      split <;> rename_i h <;> simp [Origin.holds]
  | sub n parent ps sa own ih =>
      simp only [constructible, Bool.and_eq_true, List.all_eq_true, decide_eq_true_eq] at hc
      obtain ⟨attrs, h1, h2⟩ := ih (superEnv I n parent.name sa env) hc.2
      simp only [Cls.construct]
      rw [if_pos hc.1, h1]
      refine ⟨_, rfl, fun a => ?_⟩
      simp only [origin]
      cases ho : own.lookup a with
      | some s =>
          cases s with
          | param p => simp [Origin.holds, Src.eval]
          | code t => simp [Origin.holds]
      | none =>
          simp only
          have ha := h2 a
          cases hp : origin parent a with
          | param q =>
              rw [hp] at ha
              simp only [Origin.holds] at ha
              simp only
              cases hs : sa.lookup q with
              | some s =>
                  cases s with
                  | param p => simp only [Origin.holds, ha, superEnv, hs, Src.eval]
                  | code t => simp [Origin.holds]
              | none => simp only [Origin.holds, ha, superEnv, hs]
          | dflt k q => rw [hp] at ha; simpa [Origin.holds] using ha
          | absent => rw [hp] at ha; simpa [Origin.holds] using ha
          | other => simp [Origin.holds]

theorem getParams_some (c : Cls) (attrs : String → Option V) (env : String → V)
    (h : ∀ p ∈ c.params, attrs p = some (env p)) : getParams c attrs = some (c.params.map fun p => (p, env p)) := by
  unfold getParams
  generalize c.params = ps at h ⊢
  induction ps with
  | nil => rfl
  | cons p ps ih =>
      rw [List.mapM_cons, h p (by simp), ih fun q hq => h q (by simp [hq])]
      rfl

theorem getParams_none (c : Cls) (attrs : String → Option V) (p : String) (hp : p ∈ c.params)
    (h : attrs p = Option.none) : getParams c attrs = Option.none := by
  unfold getParams
  generalize c.params = ps at hp ⊢
  induction ps with
  | nil => simp at hp
  | cons q ps ih =>
      rw [List.mapM_cons]
      rcases List.mem_cons.1 hp with rfl | hm
      · rw [h]; rfl
      · rw [ih hm]
        cases (attrs q) <;> rfl

/-! ### C129 -/

/-- The estimators whose constructor keeps every parameter. -/
def keepingClasses : List Cls :=
  [cGraphicalLasso, cLatentGraphicalLasso, cMissingGraphicalLasso, cBayesianGraphicalLasso, cTimeGraphicalLasso,
   cLatentTimeGraphicalLasso, cLatentTimeMatrixDecomposition, cKernelTimeGraphicalLasso,
   cKernelLatentTimeGraphicalLasso, cSimilarityLatentTimeGraphicalLasso, cTimeGraphicalLassoForwardBackward, cGLMGM,
   cGaussianGLMGM, cIsingGraphicalModel, cPoissonGraphicalModel, cTemporalIsingModel, cTemporalPoissonModel]

/-- C129: for these estimators `get_params()` gives back exactly the values passed to the constructor, so that an
estimator built from them (`clone`, grid search) has the same parameters. -/
theorem C129_kept_partial (I : Interp V) (c : Cls) (hc : c ∈ keepingClasses) (env : String → V) :
    ∃ attrs, c.construct I env = some attrs ∧ getParams c attrs = some (c.params.map fun p => (p, env p)) := by
  have hk : constructible c = true ∧ (c.params.all fun p => origin c p = .param p) = true := by
    simp only [keepingClasses, List.mem_cons, List.not_mem_nil, or_false] at hc
    rcases hc with rfl | rfl | rfl | rfl | rfl | rfl | rfl | rfl | rfl | rfl | rfl | rfl | rfl | rfl | rfl | rfl | rfl <;>
      decide
  obtain ⟨attrs, h1, h2⟩ := construct_sound I c env hk.1
  refine ⟨attrs, h1, getParams_some c attrs env fun p hp => ?_⟩
  have := List.all_eq_true.1 hk.2 p hp
  have hor : origin c p = .param p := by simpa using this
  have hh := h2 p
  rw [hor] at hh
  exact hh

/-- C129, the disagreement: `ker_param` of the similarity estimators is replaced by the default of the parent class. -/
theorem C129_ker_param_false (I : Interp V) (c : Cls)
    (hc : c = cSimilarityTimeGraphicalLasso ∨ c = cSimilarityTemporalIsingModel) (env : String → V) :
    "ker_param" ∈ c.params ∧ ∃ attrs v, c.construct I env = some attrs ∧ attrs "ker_param" = some v ∧
      ∀ env' attrs', c.construct I env' = some attrs' → attrs' "ker_param" = some v := by
  have key : ∀ k, constructible c = true → origin c "ker_param" = .dflt k "ker_param" →
      ∃ attrs v, c.construct I env = some attrs ∧ attrs "ker_param" = some v ∧
        ∀ env' attrs', c.construct I env' = some attrs' → attrs' "ker_param" = some v := by
    intro k hcon hor
    obtain ⟨attrs, h1, h2⟩ := construct_sound I c env hcon
    have h3 := h2 "ker_param"
    rw [hor] at h3
    refine ⟨attrs, _, h1, h3, fun env' attrs' h' => ?_⟩
    obtain ⟨attrs'', h1', h2'⟩ := construct_sound I c env' hcon
    rw [h1'] at h'
    injection h' with h'
    subst h'
    have h4 := h2' "ker_param"
    rw [hor] at h4
    exact h4
  rcases hc with rfl | rfl
  · exact ⟨by decide, key "KernelTimeGraphicalLasso" (by decide) (by decide)⟩
  · exact ⟨by decide, key "TemporalIsingModel" (by decide) (by decide)⟩

/-- C129, the disagreement: `get_params` of a `WishartProcess` (four priors) and of a `PrecomputedDiscriminantAnalysis`
raises AttributeError, whatever the parameters. -/
theorem C129_get_params_false (I : Interp V) (env : String → V) :
    (∃ attrs, cWishartProcess.construct I env = some attrs ∧ getParams cWishartProcess attrs = Option.none ∧
      ∀ p ∈ ["mu_prior", "var_prior", "mu_Lprior", "var_Lprior"], p ∈ cWishartProcess.params ∧
        attrs p = Option.none) ∧
    ∃ attrs, cPrecomputedDiscriminantAnalysis.construct I env = some attrs ∧
      getParams cPrecomputedDiscriminantAnalysis attrs = Option.none := by
  constructor
  · obtain ⟨attrs, h1, h2⟩ := construct_sound I cWishartProcess env (by decide)
    have hall : ∀ p ∈ ["mu_prior", "var_prior", "mu_Lprior", "var_Lprior"], p ∈ cWishartProcess.params ∧
        attrs p = Option.none := by
      intro p hp
      have hd : ∀ p ∈ ["mu_prior", "var_prior", "mu_Lprior", "var_Lprior"], p ∈ cWishartProcess.params ∧
        origin cWishartProcess p = .absent := by decide
      refine ⟨(hd p hp).1, ?_⟩
      have := h2 p
      rw [(hd p hp).2] at this
      exact this
    exact ⟨attrs, h1, getParams_none _ attrs "mu_prior" (by decide) (hall "mu_prior" (by simp)).2, hall⟩
  · obtain ⟨attrs, h1, h2⟩ := construct_sound I cPrecomputedDiscriminantAnalysis env (by decide)
    have h3 := h2 "precision"
    rw [show origin cPrecomputedDiscriminantAnalysis "precision" = .absent by decide] at h3
    exact ⟨attrs, h1, getParams_none _ attrs "precision" (by decide) h3⟩

/-- C129, the disagreement: a `SimilarityTemporalPoissonModel` cannot be constructed (TypeError), whatever the
parameters. -/
theorem C129_poisson_false (I : Interp V) (env : String → V) :
    cSimilarityTemporalPoissonModel.construct I env = Option.none := by
  unfold cSimilarityTemporalPoissonModel
  rw [Cls.construct, if_neg]
  decide

/-- C129, the disagreement: these parameters are rewritten by the constructor; what is stored is the value of another
expression. -/
theorem C129_rewritten_false (I : Interp V) (env : String → V) :
    (∀ attrs, cWishartProcess.construct I env = some attrs →
      attrs "burn_in" = some (I.expr "WishartProcess" "n_iter // 4 if burn_in is None else burn_in" env)) ∧
    (∀ attrs, cGroupLassoOverlap.construct I env = some attrs →
      attrs "groups" = some (I.expr "GroupLassoOverlap" "groups or []" env)) ∧
    ∀ attrs, cGraphicalModelStabilitySelection.construct I env = some attrs →
      attrs "cv" = some (I.expr "GraphicalModelStabilitySelection"
        "StratifiedShuffleSplit(train_size=sampling_size, n_splits=n_repetitions)" env) := by
  refine ⟨fun attrs h => ?_, fun attrs h => ?_, fun attrs h => ?_⟩
  · simp [Cls.construct, cWishartProcess, Cls.params] at h
    rw [← h]; rfl
  · simp [Cls.construct, cGroupLassoOverlap, Cls.params] at h
    rw [← h]; rfl
  · simp [Cls.construct, cGraphicalModelStabilitySelection, skGridSearchCV, Cls.params] at h
    rw [← h]
    simp only [List.lookup]
    rfl

/-! ### C130 -/

/-- A class with its solver call, the attributes its methods read, and the parameters with the name of a solver parameter
that are not handed over as they are: a kernel is computed from the option, `init` may be replaced by the current
networks (warm start), and an option that the class overwrites. -/
structure Use where
  cls : Cls
  call : SolverCall
  reads : List String
  computed : List String

/-- Solver calls that hand over every option with a homonym in the signature of the solver. -/
def goodUses : List Use :=
  [⟨cGraphicalLasso, callGraphicalLasso, readsGraphicalLasso, []⟩,
   ⟨cLatentGraphicalLasso, callLatentGraphicalLasso, readsLatentGraphicalLasso, []⟩,
   ⟨cMissingGraphicalLasso, callMissingGraphicalLasso, readsMissingGraphicalLasso, []⟩,
   ⟨cBayesianGraphicalLasso, callBayesianGraphicalLasso, readsBayesianGraphicalLasso, ["alphas"]⟩,
   ⟨cTimeGraphicalLasso, callTimeGraphicalLasso, readsTimeGraphicalLasso, []⟩,
   ⟨cLatentTimeGraphicalLasso, callLatentTimeGraphicalLasso, readsLatentTimeGraphicalLasso, []⟩,
   ⟨cKernelTimeGraphicalLasso, callKernelTimeGraphicalLasso, readsKernelTimeGraphicalLasso, ["kernel", "init"]⟩,
   ⟨cKernelTimeGraphicalLasso, callKernelTimeGraphicalLasso2, readsKernelTimeGraphicalLasso, ["kernel"]⟩,
   ⟨cSimilarityTimeGraphicalLasso, callSimilarityTimeGraphicalLasso, readsSimilarityTimeGraphicalLasso,
    ["kernel", "init"]⟩,
   ⟨cSimilarityTimeGraphicalLasso, callSimilarityTimeGraphicalLasso2, readsSimilarityTimeGraphicalLasso, ["kernel"]⟩,
   ⟨cTimeGraphicalLassoForwardBackward, callTimeGraphicalLassoForwardBackward, readsTimeGraphicalLassoForwardBackward,
    ["alpha"]⟩,
   ⟨cTemporalIsingModel, callTemporalIsingModel, readsTemporalIsingModel, ["kernel"]⟩,
   ⟨cSimilarityTemporalIsingModel, callSimilarityTemporalIsingModel, readsSimilarityTemporalIsingModel, ["kernel"]⟩,
   ⟨cSimilarityTemporalIsingModel, callSimilarityTemporalIsingModel2, readsSimilarityTemporalIsingModel, ["kernel"]⟩,
   ⟨cTemporalPoissonModel, callTemporalPoissonModel, readsTemporalPoissonModel, ["kernel"]⟩]

/-- C130: for these solver calls every option of the estimator with the name of a solver parameter reaches the solver
under that name, except the ones listed as computed. -/
theorem C130_reached_partial (I : Interp V) (u : Use) (hu : u ∈ goodUses) (env : String → V) :
    ∃ attrs, u.cls.construct I env = some attrs ∧
      ∀ p ∈ u.cls.params, p ∈ u.call.params → p ∉ u.computed →
        u.call.received I u.reads attrs p = some (env p) := by
  have hk : constructible u.cls = true ∧ ∀ p ∈ u.cls.params, p ∈ u.call.params → p ∉ u.computed →
      u.call.args.lookup p = some (.attr p) ∧ origin u.cls p = .param p := by
    simp only [goodUses, List.mem_cons, List.not_mem_nil, or_false] at hu
    rcases hu with rfl | rfl | rfl | rfl | rfl | rfl | rfl | rfl | rfl | rfl | rfl | rfl | rfl | rfl | rfl <;> decide
  obtain ⟨attrs, h1, h2⟩ := construct_sound I u.cls env hk.1
  refine ⟨attrs, h1, fun p hp hq hc => ?_⟩
  obtain ⟨h3, h4⟩ := hk.2 p hp hq hc
  have := h2 p
  rw [h4] at this
  unfold SolverCall.received
  rw [h3]
  exact this

/-- C130, the disagreement: the option `phi` of the kernel-based latent estimators never reaches the solver, which uses
its own default for the penalty on the latent part. -/
theorem C130_phi_false (I : Interp V) (u : Cls × SolverCall × List String)
    (hu : u ∈ [(cKernelLatentTimeGraphicalLasso, callKernelLatentTimeGraphicalLasso,
        readsKernelLatentTimeGraphicalLasso),
      (cSimilarityLatentTimeGraphicalLasso, callSimilarityLatentTimeGraphicalLasso,
        readsSimilarityLatentTimeGraphicalLasso),
      (cSimilarityLatentTimeGraphicalLasso, callSimilarityLatentTimeGraphicalLasso2,
        readsSimilarityLatentTimeGraphicalLasso)]) :
    "phi" ∈ u.1.params ∧ "phi" ∈ u.2.1.params ∧ ∀ env attrs, u.1.construct I env = some attrs →
      u.2.1.received I u.2.2 attrs "phi" = some (I.solverDflt "kernel_latent_time_graphical_lasso" "phi") := by
  have hk : "phi" ∈ u.1.params ∧ "phi" ∈ u.2.1.params ∧ u.2.1.args.lookup "phi" = Option.none ∧
      u.2.1.solver = "kernel_latent_time_graphical_lasso" := by
    simp only [List.mem_cons, List.not_mem_nil, or_false] at hu
    rcases hu with rfl | rfl | rfl <;> decide
  refine ⟨hk.1, hk.2.1, fun env attrs h => ?_⟩
  unfold SolverCall.received
  rw [hk.2.2.1, hk.2.2.2]

/-- An attribute that a parameter can influence. -/
def touches (c : Cls) (p a : String) : Bool :=
  match origin c a with
  | .param q => q = p
  | .dflt _ _ => false
  | .absent => false
  | .other => true

/-- Options that no method reads, with the solver calls of the class. -/
def ignoredOptions : List (Cls × SolverCall × List String × List String) :=
  [(cGraphicalLasso, callGraphicalLasso, readsGraphicalLasso, ["mode"]),
   (cLatentGraphicalLasso, callLatentGraphicalLasso, readsLatentGraphicalLasso, ["mode"]),
   (cMissingGraphicalLasso, callMissingGraphicalLasso, readsMissingGraphicalLasso, ["mode", "assume_centered"]),
   (cTimeGraphicalLasso, callTimeGraphicalLasso, readsTimeGraphicalLasso, ["suppress_warn_list"]),
   (cLatentTimeMatrixDecomposition, callLatentTimeMatrixDecomposition, readsLatentTimeMatrixDecomposition,
    ["assume_centered"]),
   (cKernelTimeGraphicalLasso, callKernelTimeGraphicalLasso, readsKernelTimeGraphicalLasso, ["beta"]),
   (cKernelTimeGraphicalLasso, callKernelTimeGraphicalLasso2, readsKernelTimeGraphicalLasso, ["beta"]),
   (cKernelLatentTimeGraphicalLasso, callKernelLatentTimeGraphicalLasso, readsKernelLatentTimeGraphicalLasso, ["phi"]),
   (cSimilarityLatentTimeGraphicalLasso, callSimilarityLatentTimeGraphicalLasso,
    readsSimilarityLatentTimeGraphicalLasso, ["phi"]),
   (cIsingGraphicalModel, callIsingGraphicalModel, readsIsingGraphicalModel,
    ["rtol", "rho", "return_history", "return_n_iter", "compute_objective"]),
   (cTemporalIsingModel, callTemporalIsingModel, readsTemporalIsingModel, ["distribution", "assume_centered"])]

/-- C130, the disagreement: changing one of these options changes nothing in what the solver receives. -/
theorem C130_ignored_false (I : Interp V) (u : Cls × SolverCall × List String × List String) (hu : u ∈ ignoredOptions)
    (p : String) (hp : p ∈ u.2.2.2) : p ∈ u.1.params ∧
    ∀ env env' attrs attrs', (∀ q, q ≠ p → env q = env' q) → u.1.construct I env = some attrs →
      u.1.construct I env' = some attrs' →
      ∀ q, u.2.1.received I u.2.2.1 attrs q = u.2.1.received I u.2.2.1 attrs' q := by
  have hk : constructible u.1 = true ∧ (∀ p ∈ u.2.2.2, p ∈ u.1.params) ∧
      (∀ p ∈ u.2.2.2, ∀ a ∈ u.2.2.1, touches u.1 p a = false) ∧
      (∀ p ∈ u.2.2.2, ∀ x ∈ u.2.1.args, ∀ a ∈ (match x.2 with | .attr a => [a] | .code _ => []),
        touches u.1 p a = false) := by
    simp only [ignoredOptions, List.mem_cons, List.not_mem_nil, or_false] at hu
    rcases hu with rfl | rfl | rfl | rfl | rfl | rfl | rfl | rfl | rfl | rfl | rfl <;> decide
  refine ⟨hk.2.1 p hp, fun env env' attrs attrs' hag h h' q => ?_⟩
  obtain ⟨b, h1, h2⟩ := construct_sound I u.1 env hk.1
  obtain ⟨b', h1', h2'⟩ := construct_sound I u.1 env' hk.1
  rw [h1] at h; injection h with h; subst h
  rw [h1'] at h'; injection h' with h'; subst h'
  have same : ∀ a, touches u.1 p a = false → b a = b' a := by
    intro a ha
    have e1 := h2 a
    have e2 := h2' a
    unfold touches at ha
    cases ho : origin u.1 a with
    | param r =>
        rw [ho] at e1 e2 ha
        simp only [Origin.holds] at e1 e2
        have : r ≠ p := by simpa using ha
        rw [e1, e2, hag r this]
    | dflt k r => rw [ho] at e1 e2; simp only [Origin.holds] at e1 e2; rw [e1, e2]
    | absent => rw [ho] at e1 e2; simp only [Origin.holds] at e1 e2; rw [e1, e2]
    | other => rw [ho] at ha; simp at ha
  unfold SolverCall.received
  cases hl : u.2.1.args.lookup q with
  | none => rfl
  | some x =>
      cases x with
      | attr a =>
          simp only
          have hmem : (q, Arg.attr a) ∈ u.2.1.args := by
            obtain ⟨l1, l2, hl', -⟩ := List.lookup_eq_some_iff.1 hl
            rw [hl']; simp
          exact same a (hk.2.2.2 p hp (q, .attr a) hmem a (by simp))
      | code t =>
          simp only
          congr 2
          funext a
          by_cases ha : a ∈ u.2.2.1
          · rw [if_pos ha, if_pos ha, same a (hk.2.2.1 p hp a ha)]
          · rw [if_neg ha, if_neg ha]

/-! ### C131 -/

/-- Classes whose methods assign no constructor parameter, with the attributes they assign. -/
def stableClasses : List (Cls × List String) :=
  [(cGraphicalLasso, storesGraphicalLasso), (cLatentGraphicalLasso, storesLatentGraphicalLasso),
   (cMissingGraphicalLasso, storesMissingGraphicalLasso), (cTimeGraphicalLasso, storesTimeGraphicalLasso),
   (cLatentTimeGraphicalLasso, storesLatentTimeGraphicalLasso),
   (cLatentTimeMatrixDecomposition, storesLatentTimeMatrixDecomposition),
   (cKernelTimeGraphicalLasso, storesKernelTimeGraphicalLasso),
   (cKernelLatentTimeGraphicalLasso, storesKernelLatentTimeGraphicalLasso),
   (cWishartProcess, storesWishartProcess), (cDiscriminantAnalysis, storesDiscriminantAnalysis),
   (cPrecomputedDiscriminantAnalysis, storesPrecomputedDiscriminantAnalysis), (cGLMGM, storesGLMGM),
   (cGaussianGLMGM, storesGaussianGLMGM), (cIsingGraphicalModel, storesIsingGraphicalModel),
   (cPoissonGraphicalModel, storesPoissonGraphicalModel), (cTemporalIsingModel, storesTemporalIsingModel),
   (cTemporalPoissonModel, storesTemporalPoissonModel), (cGroupLassoOverlap, storesGroupLassoOverlap)]

/-- C131: after any number of fits of these estimators, whatever the data, `get_params()` gives what it gave before the
first one. -/
theorem C131_stable_partial (u : Cls × List String) (hu : u ∈ stableClasses) (run : ℕ → String → Option V)
    (hrun : ∀ n, FitCall u.2 (run n) (run (n + 1))) (n : ℕ) : getParams u.1 (run n) = getParams u.1 (run 0) := by
  have hk : ∀ p ∈ u.1.params, p ∉ u.2 := by
    simp only [stableClasses, List.mem_cons, List.not_mem_nil, or_false] at hu
    rcases hu with rfl | rfl | rfl | rfl | rfl | rfl | rfl | rfl | rfl | rfl | rfl | rfl | rfl | rfl | rfl | rfl | rfl |
      rfl <;> decide
  have hp : ∀ p ∈ u.1.params, run n p = run 0 p := by
    intro p hp
    induction n with
    | zero => rfl
    | succ n ih => rw [hrun n p (hk p hp), ih]
  unfold getParams
  generalize u.1.params = ps at hp
  induction ps with
  | nil => rfl
  | cons p ps ih =>
      rw [List.mapM_cons, List.mapM_cons, hp p (by simp), ih fun q hq => hp q (by simp [hq])]

/-- C131, the disagreement: the parameters that a fit assigns. -/
theorem C131_assigned_false :
    (∀ u ∈ [(cSimilarityTimeGraphicalLasso, storesSimilarityTimeGraphicalLasso),
        (cSimilarityLatentTimeGraphicalLasso, storesSimilarityLatentTimeGraphicalLasso),
        (cSimilarityTemporalIsingModel, storesSimilarityTemporalIsingModel)],
      ∀ p ∈ u.1.params, p ∈ u.2 ↔ p = "n_clusters") ∧
    (∀ p ∈ cTimeGraphicalLassoForwardBackward.params, p ∈ storesTimeGraphicalLassoForwardBackward ↔ p = "alpha") ∧
    (∀ p ∈ cBayesianGraphicalLasso.params, p ∈ storesBayesianGraphicalLasso ↔ p = "alphas") ∧
    ∀ p ∈ cGraphicalModelStabilitySelection.params,
      p ∈ storesGraphicalModelStabilitySelection ↔ p = "sampling_size" ∨ p = "cv" := by
  refine ⟨by decide, by decide, by decide, by decide⟩

/-- C131, the disagreement: a similarity estimator with the default `n_clusters`, fitted on data with `T₁` times, is bound to
`T₁` clusters; a later fit on fewer times is refused by the clustering, although a fresh estimator accepts the same data. -/
theorem C131_clusters_false (T₁ T₂ : ℕ) (h : T₂ < T₁) :
    clusteringAccepts (fitClusters (fitClusters Option.none T₁) T₂) T₂ = false ∧
    clusteringAccepts (fitClusters Option.none T₂) T₂ = true := by
  simp [fitClusters, clusteringAccepts, h]

/-- C131, the disagreement: the automatic sampling size of a stability selection is the one of the first data set, and a
sampling size given by the user is rounded for the first data set and not recovered later. -/
theorem C131_sampling_false :
    (∀ auto₁ auto₂ : ℤ, fitSamplingSize (fitSamplingSize Option.none auto₁ Option.none) auto₂ Option.none = some auto₁ ∧
      fitSamplingSize Option.none auto₂ Option.none = some auto₂) ∧
    ∃ (size auto : ℤ) (k₁ k₂ : ℕ), fitSamplingSize (fitSamplingSize (some size) auto (some k₁)) auto (some k₂) ≠
      fitSamplingSize (some size) auto (some k₂) := by
  refine ⟨fun a b => ⟨rfl, rfl⟩, 50, 0, 3, 5, by decide⟩

/-- C131, the disagreement: `alpha="max"` is resolved by the first data set for every later fit. -/
theorem C131_alpha_max_false {R : Type} (auto₁ auto₂ : R) (h : auto₁ ≠ auto₂) :
    fitAlphaMax (fitAlphaMax Option.none auto₁) auto₂ ≠ fitAlphaMax Option.none auto₂ := by
  simpa [fitAlphaMax] using h

/-- The sampling size stored is always a multiple of the number of classes, and at most the one asked for. -/
theorem C131_sampling_rounded (size auto : ℤ) (k : ℕ) (hk : 0 < k) :
    ∃ m, fitSamplingSize (some size) auto (some k) = some m ∧ (k : ℤ) ∣ m ∧ m ≤ size ∧ size < m + k := by
  simp only [fitSamplingSize, Option.getD_some]
  have hk' : (0 : ℤ) < k := by exact_mod_cast hk
  by_cases h : size % k = 0
  · exact ⟨size, by rw [if_pos h], Int.dvd_of_emod_eq_zero h, le_refl _, by omega⟩
  · refine ⟨size / k * k, by rw [if_neg h], Dvd.intro_left _ rfl, Int.ediv_mul_le _ (ne_of_gt hk'), ?_⟩
    have := Int.lt_ediv_add_one_mul_self size hk'
    linarith [add_mul (size / (k:ℤ)) 1 (k:ℤ)]

/-! ### Non-vacuity -/

/-- An interpretation in which a value is its own provenance. -/
def textInterp : Interp String where
  dflt c p := "default " ++ p ++ " of " ++ c
  expr c t _ := "value of " ++ t ++ " in " ++ c
  loc t _ := "local " ++ t
  solverDflt s p := "default " ++ p ++ " of " ++ s

/-- C129, C130: a latent estimator built with every parameter given hands `tau` to its solver, but not `phi`. -/
example : ∃ attrs, cKernelLatentTimeGraphicalLasso.construct textInterp (fun p => "given " ++ p) = some attrs ∧
    getParams cKernelLatentTimeGraphicalLasso attrs =
      some (cKernelLatentTimeGraphicalLasso.params.map fun p => (p, "given " ++ p)) ∧
    callKernelLatentTimeGraphicalLasso.received textInterp readsKernelLatentTimeGraphicalLasso attrs "phi" =
      some "default phi of kernel_latent_time_graphical_lasso" := by
  obtain ⟨attrs, h1, h2⟩ := C129_kept_partial textInterp cKernelLatentTimeGraphicalLasso (by simp [keepingClasses])
    (fun p => "given " ++ p)
  exact ⟨attrs, h1, h2, (C130_phi_false textInterp _ (List.mem_cons_self ..)).2.2 _ attrs h1⟩

/-- C130: the graphical lasso receives the given `alpha`. -/
example : ∃ attrs, cGraphicalLasso.construct textInterp (fun p => "given " ++ p) = some attrs ∧
    callGraphicalLasso.received textInterp readsGraphicalLasso attrs "alpha" = some "given alpha" := by
  obtain ⟨attrs, h1, h2⟩ := C130_reached_partial textInterp _ (List.mem_cons_self .. : _ ∈ goodUses)
    (fun p => "given " ++ p)
  exact ⟨attrs, h1, h2 "alpha" (by decide) (by decide) (by decide)⟩

/-- C130: two different values of an ignored option. -/
example : ∃ env env' : String → String, (∀ q, q ≠ "mode" → env q = env' q) ∧ env "mode" ≠ env' "mode" ∧
    ∃ attrs attrs', cGraphicalLasso.construct textInterp env = some attrs ∧
      cGraphicalLasso.construct textInterp env' = some attrs' ∧ attrs "mode" ≠ attrs' "mode" :=
  ⟨fun _ => "admm", fun q => if q = "mode" then "other" else "admm", fun q hq => by simp [hq], by decide,
    _, _, rfl, rfl, by decide⟩

/-- C131: a run in which every fit changes the assigned attributes. -/
example : ∃ run : ℕ → String → Option ℕ, (∀ n, FitCall storesGraphicalLasso (run n) (run (n + 1))) ∧
    run 0 "precision_" ≠ run 1 "precision_" :=
  ⟨fun n a => if a ∈ storesGraphicalLasso then some n else some 0, fun n a ha => by simp [ha], by decide⟩

end Verif.Props
