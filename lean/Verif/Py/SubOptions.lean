import Verif.Spec.SubOptions

/-! Model of the options of `find_subgraph` (minorminer/subgraph.pyx). -/

namespace MM
namespace Py

open Spec (Restarts Ordering5 Mapping3 SubArgs SubDefaults SubParams)

/-- The exceptions raised for options. -/
inductive SubErr where
  | value
  | runtime
deriving DecidableEq, Repr

variable {F : Type}

/-- Names of the parameters for restarts that are given (subgraph.pyx 349-355, 428). -/
def given (a : SubArgs F) : List String :=
  (if a.lubyConstant.isSome then ["luby_constant"] else []) ++ (if a.geometricConstant.isSome then ["geometric_constant"] else []) ++
  (if a.geometricMultiplier.isSome then ["geometric_multiplier"] else []) ++ (if a.restartInterval.isSome then ["restart_interval"] else []) ++
  (if a.restartMinimum.isSome then ["restart_minimum"] else [])

/-- `default if value is _default_kwarg else value` (subgraph.pyx 172-174). -/
def orDefault {β : Type} (value : Option β) (default : β) : β :=
  match value with
  | some v => v
  | none => default

/-- The choice of restarts (subgraph.pyx 356-378) with the names that `_check_kwarg` removes. -/
def restarts (d : SubDefaults F) (a : SubArgs F) : Except SubErr (Restarts F × List String) :=
  match a.restartsPolicy with
  | some p =>
    if p = "luby" then .ok (.luby (orDefault a.lubyConstant d.luby), ["luby_constant"])
    else if p = "geometric" then
      .ok (.geometric (orDefault a.geometricConstant d.constant) (orDefault a.geometricMultiplier d.multiplier), ["geometric_constant", "geometric_multiplier"])
    else if p = "timed" then .ok (.timed (orDefault a.restartInterval d.duration) (orDefault a.restartMinimum d.backtracks), ["restart_interval", "restart_minimum"])
    else if p = "none" then .ok (.none, [])
    else .error .value
  | none => if a.parallel then .ok (.timed d.duration d.backtracks, []) else .ok (.luby d.luby, [])

/-- The choice of an order (subgraph.pyx 386-397). -/
def orderingOf (s : String) : Except SubErr Ordering5 :=
  if s = "none" then .ok .none
  else if s = "biased" then .ok .biased
  else if s = "degree" then .ok .degree
  else if s = "antidegree" then .ok .antidegree
  else if s = "random" then .ok .random
  else .error .runtime

/-- The choice of a kind of mapping (subgraph.pyx 399-406). -/
def mappingOf (s : String) : Except SubErr Mapping3 :=
  if s = "injective" then .ok .injective
  else if s = "locally injective" then .ok .locally
  else if s = "noninjective" then .ok .non
  else .error .runtime

/-- The options of `find_subgraph` as the solver gets them (subgraph.pyx 346-430). `triggered_restarts` is computed but not stored; the field keeps the value that the class gives
it. Reading of the graphs before and the call after are left out. -/
def subParams (d : SubDefaults F) (a : SubArgs F) : Except SubErr (SubParams F) := do
  let r ← restarts d a
  let o ← orderingOf a.valueOrdering
  let m ← mappingOf a.injectivity
  if (given a).all fun n => decide (n ∈ r.2) then
    .ok {
      timeout := a.timeout
      restarts := r.1
      nThreads := if a.parallel then 0 else a.threads
      triggeredRestarts := d.triggered
      delayThreadCreation := orDefault a.delayThreadCreation a.parallel
      ordering := o
      injectivity := m
      cliqueDetection := a.cliqueDetection
      distance3 := a.distance3
      k4 := a.k4
      noSupplementals := a.noSupplementals
      exactPathGraphs := a.nExactPathGraphs
      cliqueSize := a.cliques
      cliqueSizeOnSupplementals := a.cliquesOnSupplementals
      noNds := a.noNds }
  else .error .value

end Py
end MM
