/-! What the documentation of `find_subgraph` says about its options (minorminer/subgraph.pyx 239-322). -/

namespace MM
namespace Spec

/-- Restarts of the solver; durations in milliseconds. -/
inductive Restarts (F : Type) where
  | none
  | luby (multiplier : Nat)
  | geometric (constant multiplier : F)
  | timed (interval minimum : Nat)
deriving DecidableEq, Repr

/-- Orders of values. -/
inductive Ordering5 where
  | none
  | biased
  | degree
  | antidegree
  | random
deriving DecidableEq, Repr

/-- Kinds of mappings. -/
inductive Mapping3 where
  | injective
  | locally
  | non
deriving DecidableEq, Repr

/-- Names for the orders. -/
def Ordering5.name : Ordering5 → String
  | .none => "none"
  | .biased => "biased"
  | .degree => "degree"
  | .antidegree => "antidegree"
  | .random => "random"

/-- Names for the kinds. -/
def Mapping3.name : Mapping3 → String
  | .injective => "injective"
  | .locally => "locally injective"
  | .non => "noninjective"

/-- The options (subgraph.pyx 176-204); `none` stands for `_default_kwarg`, an option that is not given. `F` are the floating point numbers. Numbers that do not fit their
C++ types are left out. -/
structure SubArgs (F : Type) where
  timeout : Nat
  parallel : Bool
  injectivity : String
  threads : Nat
  triggeredRestarts : Option Bool
  delayThreadCreation : Option Bool
  restartsPolicy : Option String
  lubyConstant : Option Nat
  geometricConstant : Option F
  geometricMultiplier : Option F
  restartInterval : Option Nat
  restartMinimum : Option Nat
  valueOrdering : String
  cliqueDetection : Bool
  noSupplementals : Bool
  noNds : Bool
  distance3 : Bool
  k4 : Bool
  nExactPathGraphs : Int
  cliques : Bool
  cliquesOnSupplementals : Bool

/-- Constants of the solver (subgraph.pyx 108-112, 152). -/
structure SubDefaults (F : Type) where
  luby : Nat
  duration : Nat
  backtracks : Nat
  constant : F
  multiplier : F
  triggered : Bool

/-- `HomomorphismParams` (subgraph.pyx 147-163). -/
structure SubParams (F : Type) where
  timeout : Nat
  restarts : Restarts F
  nThreads : Nat
  triggeredRestarts : Bool
  delayThreadCreation : Bool
  ordering : Ordering5
  injectivity : Mapping3
  cliqueDetection : Bool
  distance3 : Bool
  k4 : Bool
  noSupplementals : Bool
  exactPathGraphs : Int
  cliqueSize : Bool
  cliqueSizeOnSupplementals : Bool
  noNds : Bool

/-- The restart policy that is meant (subgraph.pyx 288-290). -/
def SubArgs.policy {F : Type} (a : SubArgs F) : String :=
  match a.restartsPolicy with
  | some s => s
  | none => if a.parallel then "timed" else "luby"

/-- Options as documented: known names, and only parameters of the restart policy that is meant. -/
structure SubArgs.Fits {F : Type} (a : SubArgs F) : Prop where
  policy : a.policy = "luby" ∨ a.policy = "geometric" ∨ a.policy = "timed" ∨ a.policy = "none"
  ordering : ∃ o : Ordering5, a.valueOrdering = o.name
  mapping : ∃ m : Mapping3, a.injectivity = m.name
  luby : a.lubyConstant ≠ none → a.policy = "luby"
  constant : a.geometricConstant ≠ none → a.policy = "geometric"
  multiplier : a.geometricMultiplier ≠ none → a.policy = "geometric"
  interval : a.restartInterval ≠ none → a.policy = "timed"
  minimum : a.restartMinimum ≠ none → a.policy = "timed"

/-- `v` is the value given, or the default. -/
def OrStandard {β : Type} (value : Option β) (default v : β) : Prop := (∀ w, value = some w → v = w) ∧ (value = none → v = default)

/-- The solver gets the options as documented. -/
structure SubArgs.Meant {F : Type} (d : SubDefaults F) (a : SubArgs F) (p : SubParams F) : Prop where
  timeout : p.timeout = a.timeout
  luby : a.policy = "luby" → ∃ c, OrStandard a.lubyConstant d.luby c ∧ p.restarts = .luby c
  geometric : a.policy = "geometric" → ∃ c m, OrStandard a.geometricConstant d.constant c ∧ OrStandard a.geometricMultiplier d.multiplier m ∧ p.restarts = .geometric c m
  timed : a.policy = "timed" → ∃ t n, OrStandard a.restartInterval d.duration t ∧ OrStandard a.restartMinimum d.backtracks n ∧ p.restarts = .timed t n
  none : a.policy = "none" → p.restarts = .none
  threads : p.nThreads = if a.parallel then 0 else a.threads
  delay : OrStandard a.delayThreadCreation a.parallel p.delayThreadCreation
  ordering : p.ordering.name = a.valueOrdering
  mapping : p.injectivity.name = a.injectivity
  others : p.cliqueDetection = a.cliqueDetection ∧ p.noSupplementals = a.noSupplementals ∧ p.noNds = a.noNds ∧ p.distance3 = a.distance3 ∧ p.k4 = a.k4 ∧
    p.exactPathGraphs = a.nExactPathGraphs ∧ p.cliqueSize = a.cliques ∧ p.cliqueSizeOnSupplementals = a.cliquesOnSupplementals

/-- One thread triggers restarts if this is asked for, and only then. -/
def SubArgs.MeantTriggered {F : Type} (a : SubArgs F) (p : SubParams F) : Prop := OrStandard a.triggeredRestarts false p.triggeredRestarts

end Spec
end MM
