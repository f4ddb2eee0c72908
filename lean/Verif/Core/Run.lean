import Verif.Core.Search
import Verif.Core.Order

/-! Model of the master heuristic (pathfinder.hpp:142-303, 544-705). -/

namespace MM

open Scratch (Cfg)

/-- The parameters the heuristic reads (util.hpp:126-150). `weight_bound` after
`reset_mood` (embedding_problem.hpp:253-267) is `bound`. Negative counts are not
modelled. -/
structure Params where
  tries : Nat
  innerRounds : Nat
  maxNoImp : Nat
  clPatience : Nat
  skipInit : Bool
  interactive : Bool
  /-- `restrict_chains.size()` is not zero -/
  restricted : Bool
  bound : Int
  /-- for each call of `LocalInteraction::cancelled` (util.hpp:103-107): is an interrupt
  pending, and has the stop time passed -/
  stops : Nat → Bool × Bool

/-- State of a `pathfinder_base` (pathfinder.hpp:64-102) with the mood of its problem
(embedding_problem.hpp:230). -/
structure Run where
  best : Emb
  last : Emb
  curr : Emb
  init : Emb
  S : Scratch
  /-- `var_order_space` -/
  order : List Nat
  /-- `best_stats` -/
  stats : List Nat
  pushback : Int
  /-- `weight_bound` -/
  wb : Int
  /-- `target_chainsize` -/
  cs : Nat
  embedded : Bool
  desperate : Bool
  improved : Bool
  /-- number of calls of `cancelled` so far -/
  clock : Nat

/-- Return values of a pass: `-1`, `-2`, `0`, `1`. -/
inductive Pass where
  | failed | stopped | same | better
  deriving DecidableEq, Repr

namespace Run

/-- Comparison of two histograms from the last entry down (pathfinder.hpp:174-178), given
reversed. -/
def lessDown : List Nat → List Nat → Bool
  | a :: as, b :: bs => if a = b then lessDown as bs else decide (a < b)
  | _, _ => false

/-- `minor` (pathfinder.hpp:153). -/
def minorDiff (stats : List Nat) (minorstat : Nat) : Int :=
  match stats.getLast? with
  | none => 0
  | some b => (b : Int) - minorstat

/-- `check_improvement` (pathfinder.hpp:142-186). `back()` of an empty vector is undefined
behaviour. -/
def checkImprovement (P : Prob) (E : Emb) (X : Run) : M (Run × Bool) := do
  let (emb, tmp) ← E.statistics P
  let better := emb && !X.embedded
  if X.embedded && !emb then .ok (X, false)
  else
    match tmp.getLast? with
    | none => .error .ub
    | some minorstat =>
      let minor := minorDiff X.stats minorstat
      let better := better || decide (tmp.length < X.stats.length) || X.stats.isEmpty
      let X := { X with embedded := X.embedded || emb }
      let X := if better && X.embedded then { X with cs := tmp.length - 1 } else X
      let better := better || (decide (tmp.length = X.stats.length) && decide (0 < minor))
      let better := better || (decide (tmp.length = X.stats.length) && decide (minor = 0) &&
        lessDown tmp.reverse X.stats.reverse)
      if better then .ok ({ X with best := Emb.copy P X.best E, stats := tmp }, true)
      else .ok (X, false)

/-- `check_improvement(currEmbedding)`. -/
def check (P : Prob) (X : Run) : M (Run × Bool) := checkImprovement P X.curr X

/-- `find_chain(emb, u)` (pathfinder.hpp:193-202). -/
def place (P : Prob) (C : Cfg) (u : Nat) (X : Run) : M (Run × Bool) := do
  let E ← (if X.embedded || X.desperate then X.curr.stealAll P (X.S.vn u) u else .ok X.curr : M Emb)
  if X.embedded then do
    let (E, S) ← Scratch.findShort P X.cs u E X.S
    .ok ({ X with curr := E, S := S }, true)
  else do
    let E ← E.tearOut (X.S.vn u) u
    let (E, S, got) ← Scratch.findChain P C X.wb X.cs u E X.S
    .ok ({ X with curr := E, S := S }, got)

/-- `check_stops` (pathfinder.hpp:208-222) with `LocalInteraction::cancelled`
(util.hpp:103-107). -/
def checkStops (A : Params) (r : Pass) (X : Run) : M (Run × Pass) :=
  let (interrupt, timeout) := A.stops X.clock
  let X := { X with clock := X.clock + 1 }
  if interrupt then
    if A.interactive then .ok (X, .stopped) else .error .cancelled
  else if timeout then .ok (X, .stopped)
  else .ok (X, r)

/-- `ep.var_order(o)`. -/
def orderBy (P : Prob) (o : VarOrder) (X : Run) : M Run := do
  let (l, t) ← varOrder P o X.S.vn X.order X.S.tape
  .ok { X with order := l, S := { X.S with tape := t } }

/-- The loop of `initialization_pass` (pathfinder.hpp:228-235). -/
def initLoop (P : Prob) (C : Cfg) : List Nat → Run → M (Run × Bool)
  | [], X => .ok (X, true)
  | u :: us, X =>
    if X.curr.chainsize P u ≠ 0 ∧ X.curr.linked1 (X.S.vn u) u = true then initLoop P C us X
    else do
      let (X, got) ← place P C u X
      if got then initLoop P C us X else .ok (X, false)

/-- `initialization_pass` (pathfinder.hpp:227-237). -/
def initPass (P : Prob) (C : Cfg) (A : Params) (X : Run) : M (Run × Pass) := do
  let X ← orderBy P (if A.restricted then .dfs else .pfs) X
  let (X, got) ← initLoop P C X.order X
  if got then checkStops A .better X else .ok (X, .failed)

/-- `improved` as a pass result. -/
def flag (b : Bool) : Pass := if b then .better else .same

/-- The loop of `improve_overfill_pass` and, with `stop` false, of
`improve_chainlength_pass` (pathfinder.hpp:242-248, 296-301). The second component is
`improved`, the third false when a chain could not be placed. -/
def improveLoop (P : Prob) (C : Cfg) (stop : Bool) : List Nat → Bool → Run → M (Run × Bool × Bool)
  | [], imp, X => .ok (X, imp, true)
  | u :: us, imp, X => do
    let (X, got) ← place P C u X
    if got then do
      let (X, b) ← check P X
      if stop && X.embedded then .ok (X, imp || b, true)
      else improveLoop P C stop us (imp || b) X
    else .ok (X, imp, false)

/-- `improve_overfill_pass` (pathfinder.hpp:240-250). -/
def overfillPass (P : Prob) (C : Cfg) (A : Params) (X : Run) : M (Run × Pass) := do
  let X ← orderBy P .pfs X
  let (X, imp, ok) ← improveLoop P C true X.order false X
  if ok then checkStops A (flag imp) X else .ok (X, .failed)

/-- `max(0, maxfill)` (pathfinder.hpp:261-265). -/
def maxfill (P : Prob) (E : Emb) (u : Nat) : Int :=
  ((E.chains u).keys P.Q).foldl (fun m q => max m (E.w q)) 0

/-- The first branch of the loop of `pushdown_overfill_pass` (pathfinder.hpp:259-272). -/
def pushdown1 (P : Prob) (C : Cfg) (u : Nat) (X : Run) : M Run := do
  let E ← X.curr.stealAll P (X.S.vn u) u
  let X := { X with wb := maxfill P E u }
  let (E, _) ← E.freezeOut P u
  let (E, S, got) ← Scratch.findChain P C X.wb 0 u E X.S
  if got then .ok { X with curr := E, S := S }
  else do
    let E ← E.thawBack P u
    let E ← E.flipBack P (S.vn u) u 0
    .ok { X with curr := E, S := S, pushback := X.pushback + 3 }

/-- The second branch (pathfinder.hpp:274-280). -/
def bypass1 (P : Prob) (C : Cfg) (old : Int) (u : Nat) (X : Run) : M (Run × Bool) := do
  let E ← X.curr.stealAll P (X.S.vn u) u
  let E ← E.tearOut (X.S.vn u) u
  let (E, S, got) ← Scratch.findChain P C old 0 u E X.S
  .ok ({ X with curr := E, S := S, wb := old }, got)

/-- The loop of `pushdown_overfill_pass` (pathfinder.hpp:258-284). -/
def pushLoop (P : Prob) (C : Cfg) (old : Int) : List Nat → Bool → Run → M (Run × Bool × Bool)
  | [], imp, X => .ok (X, imp, true)
  | u :: us, imp, X => do
    let (X, got) ← (if X.pushback < (P.nv : Int) then do
        let X ← pushdown1 P C u X
        .ok (X, true)
      else bypass1 P C old u X : M (Run × Bool))
    if got then do
      let (X, b) ← check P X
      if X.embedded then .ok (X, imp || b, true)
      else pushLoop P C old us (imp || b) X
    else .ok (X, imp, false)

/-- `pushdown_overfill_pass` (pathfinder.hpp:254-288). Division by zero is undefined
behaviour. -/
def pushdownPass (P : Prob) (C : Cfg) (A : Params) (X : Run) : M (Run × Pass) := do
  let old := X.wb
  let X ← orderBy P .shuffle X
  let (X, imp, ok) ← pushLoop P C old X.order false X
  if ok then
    let X := { X with wb := old }
    if imp then checkStops A .better X
    else if A.innerRounds = 0 then .error .ub
    else
      checkStops A .same
        { X with pushback := X.pushback + ((P.nv * 2) / A.innerRounds : Nat) }
  else .ok (X, .failed)

/-- The shuffling of all permutations (pathfinder.hpp:294-295). There are
`num_vars + num_reserved` of them. -/
def mixPerms (P : Prob) (X : Run) : M Run :=
  if P.nv + P.nr = 0 then .error .ub
  else
    let (l, t) := permT ((List.range P.nq).map (X.S.perm 0)) X.S.tape
    .ok { X with S := { X.S with
      perm := fun _ q => match l[q]? with
        | some x => x
        | none => 0
      tape := t } }

/-- `improve_chainlength_pass` (pathfinder.hpp:292-303). -/
def chainlengthPass (P : Prob) (C : Cfg) (A : Params) (X : Run) : M (Run × Pass) := do
  let X ← mixPerms P X
  let X ← orderBy P (if X.improved then .keep else .pfs) X
  let (X, imp, ok) ← improveLoop P C false X.order false X
  if ok then checkStops A (flag imp) X else .ok (X, .failed)

/-- The inner loop of a trial (pathfinder.hpp:622-652): `trial` is `trial_patience`, the
first number counts `round_patience` before its decrement, the second is
`improvement_patience`. -/
def rounds (P : Prob) (C : Cfg) (A : Params) (trial : Nat) : Nat → Nat → Run → M (Run × Nat)
  | 0, ip, X => .ok (X, ip)
  | r+1, ip, X =>
    if ip = 0 ∨ X.embedded = true then .ok (X, ip)
    else do
      let X := { X with desperate := decide (ip ≤ 1) || decide (trial = 0) || decide (r = 0) }
      let (X, res) ← (if X.pushback < (P.nv : Int) then pushdownPass P C A X
        else overfillPass P C A { X with pushback := X.pushback - 1 } : M (Run × Pass))
      match res with
      | .stopped => rounds P C A trial r 0 X
      | .failed =>
        rounds P C A trial r (ip - 1)
          { X with curr := Emb.copy P X.curr X.best, improved := false }
      | .same => rounds P C A trial r (ip - 1) { X with improved := false }
      | .better => rounds P C A trial r A.maxNoImp { X with pushback := 0, improved := true }

/-- The loop over trials (pathfinder.hpp:618-673): the number counts `trial_patience`
before its decrement. -/
def trials (P : Prob) (C : Cfg) (A : Params) : Nat → Run → M Run
  | 0, X => .ok X
  | t+1, X =>
    if X.embedded then .ok X
    else do
      let (X, ip) ← rounds P C A t A.innerRounds A.maxNoImp { X with pushback := 0 }
      if t ≠ 0 ∧ X.embedded = false ∧ ip = 0 then do
        let X := { X with desperate := false, pushback := 0, curr := Emb.copy P X.curr X.init }
        let (X, res) ← initPass P C A X
        match res with
        | .stopped => .ok X
        | .failed => trials P C A t { X with curr := Emb.copy P X.curr X.best }
        | .same => trials P C A t X
        | .better => do
          let (X, _) ← check P { X with stats := [] }
          trials P C A t X
      else trials P C A t X

/-- The chain length improvement loop (pathfinder.hpp:680-702): the first number bounds the
passes, the second is `improvement_patience`. -/
def shrink (P : Prob) (C : Cfg) (A : Params) : Nat → Nat → Run → M Run
  | _, 0, X => .ok X
  | 0, _+1, _ => .error .diverge
  | fuel+1, ip+1, X => do
    let X := { X with last := Emb.copy P X.last X.curr, desperate := decide (ip = 0) }
    let (X, res) ← chainlengthPass P C A X
    match res with
    | .failed => shrink P C A fuel ip { X with curr := Emb.copy P X.curr X.last }
    | .stopped => .ok X
    | .same => shrink P C A fuel ip { X with improved := false }
    | .better => shrink P C A fuel A.clPatience { X with improved := true }

/-- A bound on the number of chain length passes. -/
def shrinkFuel (P : Prob) (A : Params) : Nat := (A.clPatience + 1) * ((P.nv + 1) ^ (P.Q + 2) + 1)

/-- `reset_mood` (embedding_problem.hpp:253-267), the part used here. -/
def resetMood (A : Params) (X : Run) : Run :=
  { X with wb := A.bound, embedded := false, desperate := false, cs := 0, improved := false }

/-- The first part of `heuristicEmbedding` (pathfinder.hpp:589-613): whether to go on. -/
def start (P : Prob) (C : Cfg) (A : Params) (X : Run) : M (Run × Bool) := do
  let X := resetMood A X
  if A.skipInit then
    if X.init.linked P X.S.vn then .ok ({ X with curr := Emb.copy P X.curr X.init }, true)
    else .error .badInit
  else do
    let (X, res) ← initPass P C A { X with curr := Emb.copy P X.curr X.init }
    match res with
    | .stopped => .ok (X, false)
    | .failed => .error .badInit
    | _ => .ok (X, true)

/-- `heuristicEmbedding` (pathfinder.hpp:588-705); the answer is `embedded`. The last loop
may run at most `fuel` times. -/
def heuristicFor (P : Prob) (C : Cfg) (A : Params) (fuel : Nat) (X : Run) : M (Run × Bool) := do
  let (X, go) ← start P C A X
  if go then do
    let (X, _) ← check P { X with stats := [] }
    let X := { X with improved := true, curr := Emb.copy P X.curr X.best }
    let X ← trials P C A A.tries X
    if X.embedded ∧ A.clPatience ≠ 0 then do
      let X ← shrink P C A fuel A.clPatience
        { X with wb := 1, curr := Emb.copy P X.curr X.best }
      .ok (X, X.embedded)
    else .ok (X, X.embedded)
  else .ok (X, false)

/-- `heuristicEmbedding`; `C09_improvement_terminates` shows that the bound never matters. -/
def heuristic (P : Prob) (C : Cfg) (A : Params) (X : Run) : M (Run × Bool) :=
  heuristicFor P C A (shrinkFuel P A) X

/-- The permutations made by the constructor (pathfinder.hpp:127-131). -/
def mkPerms (P : Prob) : Nat → List Nat → Tape → List (List Nat) × Tape
  | 0, _, t => ([], t)
  | n+1, l, t =>
    let (l, t) := permT l t
    let (ls, t) := mkPerms P n l t
    (l :: ls, t)

/-- The constructor (pathfinder.hpp:104-132). The scratch arrays start as zeros. -/
def new (P : Prob) (init : List (Nat × List Nat)) (t : Tape) : M Run := do
  let (E, t) ← Emb.construct P init t
  let (ps, t) := mkPerms P (P.nv + P.nr) (List.range P.nq) t
  .ok { best := Emb.empty, last := Emb.empty, curr := Emb.empty, init := E
        S := { vn := P.vn, par := fun _ _ => some 0, vis := fun _ _ => 0, dist := fun _ _ => some 0
               perm := fun v q => match ps[v]? with
                 | none => 0
                 | some l => match l[q]? with
                   | none => 0
                   | some x => x
               tape := t }
        order := List.replicate P.nv 0, stats := [], pushback := 0, wb := 0, cs := 0
        embedded := false, desperate := false, improved := false, clock := 0 }

end Run
end MM
