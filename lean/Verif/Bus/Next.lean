import Verif.Bus.Topo

/-! The masks that avoid missing couplers: `topo_cache::next` and `reset` (include/busclique/topo_cache.hpp). -/

namespace MM
namespace Bus

/-- What the random generator brings about in the calls of `next` after a call of `reset` (or after construction), numbered from 0:
the order of the missing couplers after `std::shuffle` and `std::sort` (which is not stable), and the values of `rng()&1`. The
simplification is that both are parameters here; all that is used of `order` is that it permutes the list. -/
structure Draws where
  order : Nat → List (Nat × Nat) → List (Nat × Nat)
  coin : Nat → Nat → Bool

/-- The parts of a `topo_cache` that change (topo_cache.hpp 30-41): `mask_num`, `bad_edges` and the child masks. `badmask` does
not change. -/
structure State where
  maskNum : Nat
  badEdges : List (Nat × Nat)
  child : Masks

/-- The ends chosen by the bits of `mask_num` (topo_cache.hpp 200-205), from the last coupler to the first. -/
def pickFew (bad : List (Nat × Nat)) (num : Nat) : List Nat :=
  bad.zipIdx.reverse.map fun p => if num.testBit p.2 then p.1.1 else p.1.2

/-- `std::set::emplace`. -/
def insertSet (x : Nat) (s : List Nat) : List Nat := if x ∈ s then s else x :: s

/-- `adj` as it is filled (topo_cache.hpp 215-225). -/
def adjOf (bad : List (Nat × Nat)) : Nat → List Nat :=
  bad.foldl (fun adj e v =>
    if v = e.1 then insertSet e.2 (adj v) else if v = e.2 then insertSet e.1 (adj v) else adj v) fun _ => []

/-- `adj` after `x` went into the cover (topo_cache.hpp 241-243). -/
def dropVertex (adj : Nat → List Nat) (x : Nat) : Nat → List Nat :=
  fun v => if v = x then [] else if v ∈ adj x then (adj v).filter (· ≠ x) else adj v

/-- The end of a coupler that goes into the cover (topo_cache.hpp 236-239). -/
def coverEnd (adj : Nat → List Nat) (coin : Bool) (e : Nat × Nat) : Nat :=
  if (adj e.1).length < (adj e.2).length then e.2
  else if (adj e.2).length < (adj e.1).length then e.1
  else if coin then e.2
  else e.1

/-- The loop that builds `cover` (topo_cache.hpp 233-244). -/
def cover (coin : Nat → Bool) : List (Nat × Nat) → (Nat → List Nat) → List Nat → List Nat
  | [], _, c => c
  | e :: es, adj, c =>
    if e.1 ∈ c ∨ e.2 ∈ c then cover coin es adj c
    else
      let x := coverEnd adj (coin es.length) e
      cover coin es (dropVertex adj x) (x :: c)

/-- The joint to the next position, if there is one (topo_cache.hpp 259-265). -/
def clearNext (T : Topo) (edge : List Byte) (y x : Nat) (u : Bool) (b : Byte) : B (List Byte) :=
  if u then if x + 1 < T.dimX then andAt edge (cellYX T.dimX y (x + 1) u) (~~~b) else pure edge
  else if y + 1 < T.dimY then andAt edge (cellYX T.dimX (y + 1) x u) (~~~b)
  else pure edge

/-- One removed fragment (topo_cache.hpp 251-265). -/
def clearAt (T : Topo) (M : Masks) (q : Nat) : B Masks := do
  let (y, x, u, k) := linearChimera T.dimX T.shore q
  let b ← maskBit k
  let node ← andAt M.node (cellYX T.dimX y x u) (~~~b)
  let edge ← andAt M.edge (cellYX T.dimX y x u) (~~~b)
  let edge ← clearNext T edge y x u b
  pure { M with node := node, edge := edge }

/-- `memcpy` of the masks and the removal of fragments (topo_cache.hpp 248-266). -/
def childOf (T : Topo) (M : Masks) (q : List Nat) : B Masks := q.foldlM (clearAt T) M

/-- `next` (topo_cache.hpp 189-267); `call` counts the calls since the last `reset`. The condition
`bad_edges.size() <= log2(mask_bound)` is written with a power of two, and is not computed in floating point. -/
def next (T : Topo) (M : Masks) (bound : Nat) (D : Draws) (call : Nat) (s : State) : B (Option State) :=
  if s.badEdges.length = 0 then
    if s.maskNum = 0 then pure (some { s with maskNum := 1, child := M }) else pure none
  else if 2 ^ s.badEdges.length ≤ bound then
    if s.maskNum < 2 ^ s.badEdges.length then do
      let child ← childOf T M (pickFew s.badEdges s.maskNum)
      pure (some ⟨s.maskNum + 1, s.badEdges, child⟩)
    else pure none
  else if s.maskNum < bound then do
    let bad := D.order call s.badEdges
    let child ← childOf T M (cover (D.coin call) bad (adjOf bad) [])
    pure (some ⟨s.maskNum + 1, bad, child⟩)
  else pure none

/-- The constructor (topo_cache.hpp 60-69, 143-165), with the result of the first `next`; if that returned false the child masks
would not be initialised. -/
def start (T : Topo) (bound : Nat) (D : Draws) (nodes : List Nat) (edges : List (Nat × Nat)) : B (Masks × State) := do
  let M ← buildMasks T nodes edges
  let bad ← badEdges T M.bad
  let s ← next T M bound D 0 ⟨0, bad, M⟩
  match s with
  | some s => pure (M, s)
  | none => .error .ub

/-- `reset` (topo_cache.hpp 71-77). -/
def reset (T : Topo) (M : Masks) (bound : Nat) (D : Draws) (s : State) : B State :=
  if 0 < s.maskNum then do
    let s' ← next T M bound D 0 { s with maskNum := 0 }
    match s' with
    | some s' => pure s'
    | none => pure { s with maskNum := 0 }
  else pure s

/-- The states in which the body of a loop `do … while(topology.next())` runs (find_clique.hpp 236-246, find_biclique.hpp 50-64; and
`find_clique`, find_clique.hpp 205-211). -/
def visits (T : Topo) (M : Masks) (bound : Nat) (D : Draws) : Nat → Nat → State → B (List State)
  | 0, _, _ => .error .diverge
  | fuel + 1, call, s => do
    let r ← next T M bound D call s
    match r with
    | none => pure [s]
    | some s' => do
      let rest ← visits T M bound D fuel (call + 1) s'
      pure (s :: rest)

/-- The masks a search runs on: those of the states after `reset`. -/
def searched (T : Topo) (bound : Nat) (D D' : Draws) (nodes : List Nat) (edges : List (Nat × Nat)) : B (List Masks) := do
  let (M, s) ← start T bound D nodes edges
  let s ← reset T M bound D' s
  let l ← visits T M bound D' (bound + 2) 1 s
  pure (l.map (·.child))

end Bus
end MM
