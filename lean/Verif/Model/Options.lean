import Mathlib.Data.List.Lookmap
import Mathlib.Data.Option.Basic

/-! Constructors, stored parameters and solver calls of the estimators, as interpreted tables. The tables themselves are in
`Verif/Model/OptionTable.lean`, generated from the text of /repo by `tools/gen_options.py` with one citation per class and
per call. The definitions of this file give the tables their meaning (the rules of Python for constructors and keyword
arguments); they are read off constructors such as regain/covariance/kernel_time_graphical_lasso_.py:645-686 and calls such
as regain/covariance/kernel_time_graphical_lasso_.py:762-820. -/

namespace Verif.Model

set_option autoImplicit false

/-- The right-hand side of an assignment or of a keyword in a constructor: a parameter as it is, or another expression
(its text), as in regain/covariance/kernel_time_graphical_lasso_.py:665-686. -/
inductive Src where
  | param (name : String)
  | code (text : String)
  deriving DecidableEq

/-- A class: nothing to store (`object`, or no call of the parent constructor); an external class that stores every
parameter under its name; or a class with parameters, keywords handed to the parent and attributes assigned. -/
inductive Cls where
  | none
  | ext (name : String) (params : List String)
  | sub (name : String) (parent : Cls) (params : List String) (superArgs own : List (String × Src))

/-- The name of the class. -/
def Cls.name : Cls → String
  | .none => "object"
  | .ext n _ => n
  | .sub n _ _ _ _ => n

/-- The parameters of the constructor. -/
def Cls.params : Cls → List String
  | .none => []
  | .ext _ ps => ps
  | .sub _ _ ps _ _ => ps

/-- What the text does not fix: the default value of a parameter of a class, the value of an expression in a constructor
given the parameters, the value of a local expression in `fit` given the attributes of self, and the default value of a
solver parameter. -/
structure Interp (V : Type) where
  dflt : String → String → V
  expr : String → String → (String → V) → V
  loc : String → (String → Option V) → V
  solverDflt : String → String → V

/-- Value of a right-hand side. -/
def Src.eval {V : Type} (I : Interp V) (cls : String) (env : String → V) : Src → V
  | .param p => env p
  | .code t => I.expr cls t env

/-- The parameters the parent constructor sees: the keywords handed over, its defaults for the others. -/
def superEnv {V : Type} (I : Interp V) (n parent : String) (sa : List (String × Src)) (env : String → V) (q : String) : V :=
  match sa.lookup q with
  | some s => s.eval I n env
  | Option.none => I.dflt parent q

/-- Run a constructor with the parameter values `env`: the attributes of the object, or `none` (TypeError) if a keyword
handed to the parent is not one of its parameters. A parameter not handed to the parent takes the parent's default.
The assignments come after the parent constructor and win. -/
def Cls.construct {V : Type} (I : Interp V) : Cls → (String → V) → Option (String → Option V)
  | .none, _ => some fun _ => Option.none
  | .ext _ ps, env => some fun a => if a ∈ ps then some (env a) else Option.none
  | .sub n parent _ sa own, env =>
      if ∀ q ∈ sa, q.1 ∈ parent.params then
        match parent.construct I (superEnv I n parent.name sa env) with
        | Option.none => Option.none
        | some attrs => some fun a =>
            match own.lookup a with
            | some s => some (s.eval I n env)
            | Option.none => attrs a
      else Option.none

/-- `get_params()` of scikit-learn: one attribute per parameter of the constructor; `none` (AttributeError) if one is
missing. -/
def getParams {V : Type} (c : Cls) (attrs : String → Option V) : Option (List (String × V)) :=
  c.params.mapM fun p => (attrs p).map fun v => (p, v)

/-- An argument of a solver call: an attribute of self, or another expression (its text). -/
inductive Arg where
  | attr (name : String)
  | code (text : String)
  deriving DecidableEq

/-- A solver call inside `fit` or `_fit`: the solver, its parameters and the arguments given. -/
structure SolverCall where
  solver : String
  params : List String
  args : List (String × Arg)

/-- The value a solver parameter receives; `none` is the AttributeError of a missing attribute. Expressions other than an
attribute may depend on the attributes in `reads` (those read by the methods of the class) and on nothing else of self. -/
def SolverCall.received {V : Type} (I : Interp V) (call : SolverCall) (reads : List String) (attrs : String → Option V)
    (q : String) : Option V :=
  match call.args.lookup q with
  | some (.attr a) => attrs a
  | some (.code t) => some (I.loc t fun a => if a ∈ reads then attrs a else Option.none)
  | Option.none => some (I.solverDflt call.solver q)

/-- A call of `fit` seen from outside: the attributes in `stores` (those assigned by the methods of the class) may change,
the others do not. The methods of the external parents are assumed to assign no constructor parameter. -/
def FitCall {V : Type} (stores : List String) (before after : String → Option V) : Prop :=
  ∀ a, a ∉ stores → after a = before a

/-- The number of clusters a similarity estimator uses and stores, regain/covariance/kernel_time_graphical_lasso_.py:700-701,
regain/covariance/kernel_latent_time_graphical_lasso_.py:753-754, regain/generalized_linear_model/glm_time_ising.py:706-707:
`if self.n_clusters is None: self.n_clusters = n_times`. -/
def fitClusters (nClusters : Option Nat) (nTimes : Nat) : Option Nat :=
  some (nClusters.getD nTimes)

/-- The check of `AgglomerativeClustering.fit` (scikit-learn): more clusters than samples is a ValueError (`false`). -/
def clusteringAccepts (nClusters : Option Nat) (nTimes : Nat) : Bool :=
  match nClusters with
  | some k => decide (k ≤ nTimes)
  | Option.none => true

/-- The sampling size used and stored by `GraphicalModelStabilitySelection.fit`,
regain/model_selection/stability_optimization.py:325-336: `int(min(10 sqrt n, n - 10))` if none was given (`auto`, a function
of the data only), then rounded down to a multiple of the number of classes when labels are given. -/
def fitSamplingSize (size : Option Int) (auto : Int) (nClasses : Option Nat) : Option Int :=
  match nClasses with
  | Option.none => some (size.getD auto)
  | some k => some (if size.getD auto % k = 0 then size.getD auto else size.getD auto / k * k)

/-- The option `alpha` of `TimeGraphicalLassoForwardBackward` used and stored by a fit,
regain/forward_backward/time_graphical_lasso_.py:525-526: `none` is the string "max", replaced by a function `auto` of the
data. -/
def fitAlphaMax {R : Type} (alpha : Option R) (auto : R) : Option R :=
  some (alpha.getD auto)

end Verif.Model
