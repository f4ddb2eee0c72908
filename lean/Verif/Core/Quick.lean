import Verif.Core.RunPost
import Verif.Graph.Find

/-! Model of the greedy pass (pathfinder.hpp:544-585, find_embedding.hpp:166-169). -/

namespace MM

open Scratch (Cfg)

/-- The arguments of a greedy pass (pathfinder.hpp:544-545). A negative chain length bound
means the same as zero and is not modelled; `round_beta` only shapes the weight table. -/
structure Quick where
  /-- `chainlength_bound` -/
  length : Nat
  /-- `overlap_bound` -/
  overlap : Int
  /-- `local_search` -/
  near : Bool
  /-- `clear_first` -/
  clear : Bool

namespace Quick

/-- Whether to search close to the present chain (pathfinder.hpp:558-566). -/
def nearby (P : Prob) (K : Quick) (E : Emb) (u : Nat) : Bool :=
  K.near && ((E.chains u).keys P.Q).all (fun q => decide (E.w q ≤ 1))

/-- The new chain for one variable (pathfinder.hpp:551-574). -/
def replace (P : Prob) (C : Cfg) (K : Quick) (u : Nat) (E : Emb) (S : Scratch) :
    M (Emb × Scratch × Bool) := do
  let E ← (if E.chainsize P u ≠ 0 then E.stealAll P (S.vn u) u else .ok E : M Emb)
  if K.nearby P E u then do
    let (E, S) ← Scratch.findShort P K.length u E S
    .ok (E, S, true)
  else do
    let E ← (if E.chainsize P u ≠ 0 then E.tearOut (S.vn u) u else .ok E : M Emb)
    Scratch.findChain P C (1 + K.overlap) K.length u E S

/-- One round of the loop (pathfinder.hpp:550-582). -/
def step (P : Prob) (C : Cfg) (K : Quick) (u : Nat) (E : Emb) (S : Scratch) : M (Emb × Scratch) := do
  let (E, S, got) ← replace P C K u E S
  if got ∧ 0 < K.length ∧ K.length < E.chainsize P u then do
    let E ← E.stealAll P (S.vn u) u
    let E ← E.tearOut (S.vn u) u
    .ok (E, S)
  else .ok (E, S)

/-- The loop (pathfinder.hpp:550-583). -/
def loop (P : Prob) (C : Cfg) (K : Quick) : List Nat → Emb → Scratch → M (Emb × Scratch)
  | [], E, S => .ok (E, S)
  | u :: us, E, S => do
    let (E, S) ← step P C K u E S
    loop P C K us E S

/-- `quickPass` for a list of variables (pathfinder.hpp:544-585). -/
def pass (P : Prob) (C : Cfg) (K : Quick) (order : List Nat) (X : Run) : M Run := do
  let E := if K.clear then Emb.copy P X.best X.init else X.best
  let (E, S) ← loop P C K order E X.S
  .ok { X with best := E, S := S }

end Quick

/-- `miner.quickpass(varorder)` on a miner that was just made (find_embedding.hpp:166-169,
_minorminer.pyx:500-554): the chains of all variables. The list holds indices of source
nodes. -/
def quickPass (sort : List (List Nat) → List (List Nat)) (C : Cfg) (K : Quick)
    (I : Input) (vs : List Int) (t : Tape) : M (List (List Nat)) := do
  let p ← I.process sort
  let X ← Run.new p.P p.init t
  let order ← Input.inputVars I.src.n p.fx vs
  let X ← Quick.pass p.P C { K with clear := true } order X
  p.getChains X.best (List.range I.src.n) X.S.tape

end MM
