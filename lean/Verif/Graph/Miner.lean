import Verif.Core.Quick

/-! Model of class `miner` (_minorminer.pyx:446-623), of the wrapper it holds
(find_embedding.hpp:144-174), and of what several calls on one object do. -/

namespace MM

open Scratch (Cfg)

/-- What an exception for bad initial chains leaves behind (pathfinder.hpp:588-613): the
mood is reset; without `skip_initialization` the initialization pass has run. -/
def Run.refused (P : Prob) (C : Cfg) (A : Params) (X : Run) : M Run := do
  let X := resetMood A X
  if A.skipInit then .ok X
  else do
    let (X, _) ← initPass P C A { X with curr := Emb.copy P X.curr X.init }
    .ok X

/-- `getChains`, with the choices that are left. -/
def Proc.getAll (p : Proc) (E : Emb) : List Nat → Tape → M (List (List Nat) × Tape)
  | [], t => .ok ([], t)
  | u :: us, t => do
    let (c, t) ← p.getChain E u t
    let (cs, t) ← p.getAll E us t
    .ok (c :: cs, t)

/-- How a history can break off. -/
inductive Halt where
  /-- undefined behaviour -/
  | undefined
  /-- an endless loop -/
  | endless
  /-- an interrupt; what it leaves behind is not modelled -/
  | interrupted
  /-- an exception of the search that is not turned into a Python exception, because the
  interface declares none (_minorminer_h.pxi:122, 126): it ends the process -/
  | terminated (e : Fault)
  /-- a Python exception -/
  | raised (e : Fault)
  deriving DecidableEq, Repr

abbrev W (α : Type) := Except Halt α

/-- A call of a function that is declared without exceptions. -/
def bare {α : Type} : M α → W α
  | .ok a => .ok a
  | .error .ub => .error .undefined
  | .error .diverge => .error .endless
  | .error e => .error (.terminated e)

/-- A `miner` (_minorminer.pyx:459-471). The labels are left out: nodes are numbers. Pins
of suspended chains are left out too. -/
structure Miner where
  /-- `num_vars()` -/
  n : Nat
  /-- number of target nodes -/
  nt : Nat
  /-- `restrict_chains.size()` is not zero -/
  restricted : Bool
  p : Proc
  X : Run
  /-- `quickpassed` -/
  quick : Bool

/-- The order of a greedy pass (_minorminer.pyx:537-546). -/
inductive Sequence where
  /-- a list of source nodes -/
  | listed (vs : List Int)
  /-- a list with a label that is not a source node -/
  | unknown
  /-- a strategy -/
  | strategy (o : VarOrder)

/-- A call of a method. `C` holds the weight table and says whether the search is parallel;
a greedy pass sets its own `round_beta`. -/
inductive Call where
  | find
  | quick (C : Cfg) (K : Quick) (s : Sequence)
  | initial (m : ChainMap)

/-- What the caller sees. -/
inductive Reply where
  /-- an embedding, or nothing, and the flag -/
  | found (ok : Bool) (cs : List (List Nat))
  /-- the chains after a greedy pass; nodes without chain are left out of the dict -/
  | chains (cs : List (List Nat))
  /-- `None` -/
  | done
  /-- an exception from the search -/
  | raised (e : Fault)
  /-- `ValueError` for an unknown label -/
  | unknown
  deriving DecidableEq, Repr

namespace Miner

/-- The constructor (_minorminer.pyx:462-468, find_embedding.hpp:149-152). -/
def make (sort : List (List Nat) → List (List Nat)) (I : Input) (t : Tape) : W Miner := do
  let p ← bare (I.process sort)
  let X ← bare (Run.new p.P p.init t)
  .ok ⟨I.src.n, I.tgt.n, !I.restrC.isEmpty, p, X, false⟩

/-- The chains of all variables in the best embedding (_minorminer.pyx:489-492, 549-554). -/
def read (m : Miner) : W (Miner × List (List Nat)) := do
  let (cs, t) ← bare (m.p.getAll m.X.best (List.range m.n) m.X.S.tape)
  .ok ({ m with X := { m.X with S := { m.X.S with tape := t } } }, cs)

/-- `find_embedding` (_minorminer.pyx:473-498); the exceptions of the search are declared
(_minorminer_h.pxi:123). -/
def find (C : Cfg) (A : Params) (ro : Bool) (m : Miner) : W (Miner × Reply) :=
  let A := { A with restricted := m.restricted }
  match Run.heuristic m.p.P C A m.X with
  | .error .badInit => do
    let X ← bare (Run.refused m.p.P C A m.X)
    .ok ({ m with X := X }, .raised .badInit)
  | .error .cancelled => .error .interrupted
  | .error e => bare (.error e)
  | .ok (X, ok) =>
    if ro || ok then do
      let (m, cs) ← read { m with X := X }
      .ok (m, .found ok cs)
    else .ok ({ m with X := X }, .found ok [])

/-- A greedy pass over a list of variables, and its chains. -/
def greedy (C : Cfg) (K : Quick) (order : List Nat) (m : Miner) : W (Miner × Reply) := do
  let X ← bare (Quick.pass m.p.P C K order m.X)
  let (m, cs) ← read { m with X := X }
  .ok (m, .chains cs)

/-- `quickpass` (_minorminer.pyx:500-554, find_embedding.hpp:166-173,
pathfinder.hpp:532-585); its exceptions are declared (_minorminer_h.pxi:127-128). -/
def quickpass (C : Cfg) (K : Quick) (s : Sequence) (m : Miner) : W (Miner × Reply) :=
  let K := if m.quick then K else { K with clear := true }
  let m := { m with quick := true }
  match s with
  | .unknown => .ok (m, .unknown)
  | .listed vs =>
    match Input.inputVars m.n m.p.fx vs with
    | .error e => .ok (m, .raised e)
    | .ok order => greedy C K order m
  | .strategy o => do
    let X ← bare (Run.orderBy m.p.P o m.X)
    let m := { m with X := X }
    if X.order = [] then .ok (m, .raised .badInit) else greedy C K X.order m

/-- `set_initial_chains` (_minorminer.pyx:587-598, find_embedding.hpp:164,
pathfinder.hpp:135-137). -/
def setInitial (c : ChainMap) (m : Miner) : W Miner := do
  let init ← bare (Input.inputChains m.n m.nt m.p.comps m.p.screw c)
  let (E, t) ← bare (Emb.construct m.p.P init m.X.S.tape)
  .ok { m with
    p := { m.p with init := init }
    X := { m.X with init := Emb.copy m.p.P m.X.init E, S := { m.X.S with tape := t } } }

/-- One call. -/
def call (C : Cfg) (A : Params) (ro : Bool) (m : Miner) : Call → W (Miner × Reply)
  | .find => find C A ro m
  | .quick C' K s => quickpass C' K s m
  | .initial c => do
    let m ← setInitial c m
    .ok (m, .done)

/-- Calls, one after the other. -/
def calls (C : Cfg) (A : Params) (ro : Bool) : List Call → Miner → W (Miner × List Reply)
  | [], m => .ok (m, [])
  | c :: cs, m => do
    let (m, r) ← call C A ro m c
    let (m, rs) ← calls C A ro cs m
    .ok (m, r :: rs)

/-- `find_embeddings` (_minorminer.pyx:556-585); the loop may run at most `fuel` times. An
exception ends the call. -/
def several (C : Cfg) (A : Params) (ro force : Bool) :
    (fuel n : Nat) → Miner → W (Miner × List (List (List Nat)))
  | _, 0, m => .ok (m, [])
  | 0, _ + 1, _ => .error .endless
  | fuel + 1, n + 1, m => do
    let (m, r) ← find C A ro m
    match r with
    | .raised e => .error (.raised e)
    | .found _ cs =>
      if ro || decide (cs.length ≠ 0) then do
        let (m, l) ← several C A ro force fuel n m
        .ok (m, cs :: l)
      else if force then several C A ro force fuel (n + 1) m
      else several C A ro force fuel n m
    | _ => .error .undefined

/-- `improve_embeddings` (_minorminer.pyx:600-623). An exception ends the call. -/
def improve (C : Cfg) (A : Params) (ro : Bool) :
    List ChainMap → Miner → W (Miner × List (List (List Nat)))
  | [], m => .ok (m, [])
  | c :: cs, m => do
    let m ← setInitial c m
    let (m, r) ← find C A ro m
    match r with
    | .raised e => .error (.raised e)
    | .found _ e => do
      let (m, l) ← improve C A ro cs m
      .ok (m, e :: l)
    | _ => .error .undefined

end Miner

/-- A `miner` for `I` and a history of calls: what the caller sees. -/
def session (sort : List (List Nat) → List (List Nat)) (C : Cfg) (A : Params) (ro : Bool) (I : Input)
    (cs : List Call) (t : Tape) : W (List Reply) := do
  let m ← Miner.make sort I t
  let (_, rs) ← m.calls C A ro cs
  .ok rs

/-- A `miner` for `I` and one call of `find_embeddings`. -/
def findEmbeddings (sort : List (List Nat) → List (List Nat)) (C : Cfg) (A : Params) (ro force : Bool) (I : Input)
    (fuel n : Nat) (t : Tape) : W (List (List (List Nat))) := do
  let m ← Miner.make sort I t
  let (_, l) ← m.several C A ro force fuel n
  .ok l

/-- A `miner` for `I` and one call of `improve_embeddings`. -/
def improveEmbeddings (sort : List (List Nat) → List (List Nat)) (C : Cfg) (A : Params) (ro : Bool) (I : Input)
    (cs : List ChainMap) (t : Tape) : W (List (List (List Nat))) := do
  let m ← Miner.make sort I t
  let (_, l) ← m.improve C A ro cs
  .ok l

end MM
