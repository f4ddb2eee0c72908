import Verif.Bus.Coord

/-! Model of the three topologies of include/busclique/util.hpp (lines 152-645): how qubits are cut into fragments that sit in
the cells of a grid, and how the masks of nodes, of line couplers and of missing cell couplers are filled. -/

namespace MM
namespace Bus

/-- `chimera_spec`, `pegasus_spec`, `zephyr_spec` (util.hpp 152-163, 205-215, 371-376, 446-463) without the seed. The 2×6 array `offsets` of
Pegasus is a function, which the code applies only to numbers below 6. -/
inductive Topo where
  | chimera (rows cols tile : Nat)
  | pegasus (pdim : Nat) (off : Bool → Nat → Nat)
  | zephyr (zdim tile : Nat)

namespace Topo

/-- `dim_y` (util.hpp 154, 213, 462). -/
def dimY : Topo → Nat
  | chimera m _ _ => m
  | pegasus d _ => 6 * d
  | zephyr d _ => 2 * d + 1

/-- `dim_x`. -/
def dimX : Topo → Nat
  | chimera _ n _ => n
  | pegasus d _ => 6 * d
  | zephyr d _ => 2 * d + 1

/-- `shore`. -/
def shore : Topo → Nat
  | chimera _ _ t => t
  | pegasus _ _ => 2
  | zephyr _ t => 2 * t

/-- `num_cells` (util.hpp 189-191). -/
def numCells (T : Topo) : Nat := T.dimY * (T.dimX * 2)

/-- `cell_index(u, w, z)` (util.hpp 185-187). -/
def cell (T : Topo) (u : Bool) (w z : Nat) : Nat := cellUWZ T.dimX u w z

/-- `chimera_linear` for a fragment given by its line (`horz`/`vert`, as in util.hpp 280-281). -/
def frag (T : Topo) (u : Bool) (w z k : Nat) : Nat :=
  if u then chimeraLinear T.dimX T.shore w z true k else chimeraLinear T.dimX T.shore z w false k

end Topo

/-- `pegasus_linear` (util.hpp 312-315). -/
def pegasusLinear (d : Nat) (u : Bool) (w k z : Nat) : Nat := linemajorLinear d 12 (d - 1) u w k z

/-- `pegasus_coordinates` (util.hpp 333-336). -/
def pegasusCoordinates (d : Nat) (q : Nat) : Bool × Nat × Nat × Nat := linearLinemajor d 12 (d - 1) q

/-- `zephyr_linear` (util.hpp 538-540). -/
def zephyrLinear (d t : Nat) (u : Bool) (w k z : Nat) : Nat := linemajorLinear (2 * d + 1) (2 * t) d u w k z

/-- `zephyr_coordinates` (util.hpp 533-536). -/
def zephyrCoordinates (d t : Nat) (q : Nat) : Bool × Nat × Nat × Nat := linearLinemajor (2 * d + 1) (2 * t) d q

/-- `first_fragment` for Pegasus (util.hpp 259-267): orientation, line, number in the line's bundle, position. -/
def pegasusFirst (d : Nat) (off : Bool → Nat → Nat) (q : Nat) : Bool × Nat × Nat × Nat :=
  let c := pegasusCoordinates d q
  (c.1, c.2.1 * 6 + c.2.2.1 / 2, c.2.2.1 % 2, c.2.2.2 * 6 + off c.1 (c.2.2.1 / 2))

/-- `first_fragment` for Zephyr (util.hpp 466-470). -/
def zephyrFirst (d t : Nat) (q : Nat) : Bool × Nat × Nat × Nat :=
  let c := zephyrCoordinates d t q
  (c.1, c.2.1, c.2.2.1, c.2.2.2 * 2 + c.2.2.1 % 2)

/-- The arrays `nodemask`, `edgemask` and `badmask` (topo_cache.hpp 28-30). -/
structure Masks where
  node : List Byte
  edge : List Byte
  bad : List Byte
  deriving DecidableEq, Repr

/-- `a[i] |= b`. -/
def orAt (a : List Byte) (i : Nat) (b : Byte) : B (List Byte) := do
  let x ← at_ a i
  put a i (x ||| b)

/-- `a[i] &= b`. -/
def andAt (a : List Byte) (i : Nat) (b : Byte) : B (List Byte) := do
  let x ← at_ a i
  put a i (x &&& b)

/-- Fragment `(u, w, k, z)` becomes present: `nodemask |=`, for all but the first fragment of a qubit also
`edgemask |=`, and `badmask = ~0` (util.hpp 278-290, 516-528). -/
def addFragment (T : Topo) (inner : Bool) (M : Masks) (u : Bool) (w k z : Nat) : B Masks := do
  let b ← maskBit k
  let node ← orAt M.node (T.cell u w z) b
  let edge ← if inner then orAt M.edge (T.cell u w z) b else pure M.edge
  let bad ← put M.bad (T.frag u w z k) (BitVec.allOnes 8)
  pure { node := node, edge := edge, bad := bad }

/-- The fragments after the first: `z++` and again (util.hpp 283-291, 521-528). -/
def addInner (T : Topo) (u : Bool) (w k : Nat) : Nat → Nat → Masks → B Masks
  | 0, _, M => pure M
  | n + 1, z, M => do
    let M' ← addFragment T true M u w k z
    addInner T u w k n (z + 1) M'

/-- All fragments of one qubit. -/
def addLine (T : Topo) (n : Nat) (c : Bool × Nat × Nat × Nat) (M : Masks) : B Masks := do
  let M' ← addFragment T false M c.1 c.2.1 c.2.2.1 c.2.2.2
  addInner T c.1 c.2.1 c.2.2.1 n (c.2.2.2 + 1) M'

/-- One round of `process_nodes` with `populate_badmask` (util.hpp 270-294, 402-416, 508-530). -/
def processNode : Topo → Masks → Nat → B Masks
  | T@(.chimera _ n t), M, q => do
    let (y, x, u, k) := linearChimera n t q
    let bad ← put M.bad q (BitVec.allOnes 8)
    let b ← maskBit k
    let node ← orAt M.node (cellYX T.dimX y x u) b
    pure { M with node := node, bad := bad }
  | T@(.pegasus d off), M, q => addLine T 5 (pegasusFirst d off q) M
  | T@(.zephyr d t), M, q => addLine T 1 (zephyrFirst d t q) M

/-- `process_nodes`. -/
def processNodes (T : Topo) (M : Masks) (nodes : List Nat) : B Masks := nodes.foldlM (processNode T) M

/-- A coupler inside a cell is there: bits of `badmask` are cleared on both sides (util.hpp 253-254, 396-397, 500-501). -/
def clearBad (T : Topo) (M : Masks) (y x k0 k1 : Nat) : B Masks := do
  let b1 ← maskBit k1
  let bad ← andAt M.bad (chimeraLinear T.dimX T.shore y x false k0) (~~~b1)
  let b0 ← maskBit k0
  let bad ← andAt bad (chimeraLinear T.dimX T.shore y x true k1) (~~~b0)
  pure { M with bad := bad }

/-- One round of `process_edges` with `populate_badmask` (util.hpp 224-257, 379-400, 474-505). -/
def processEdge (T : Topo) (M : Masks) (e : Nat × Nat) : B Masks :=
  let p := min e.1 e.2
  let q := max e.1 e.2
  match T with
  | .chimera _ n t =>
    let (py, px, pu, pk) := linearChimera n t p
    let (qy, qx, qu, qk) := linearChimera n t q
    if pu = qu then
      if pk = qk ∧ py + (1 - unum pu) = qy ∧ px + unum pu = qx then do
        let b ← maskBit qk
        let edge ← orAt M.edge (cellYX T.dimX qy qx qu) b
        pure { M with edge := edge }
      else pure M
    else if py = qy ∧ px = qx then do
      let bq ← maskBit qk
      let bad ← andAt M.bad p (~~~bq)
      let bp ← maskBit pk
      let bad ← andAt bad q (~~~bp)
      pure { M with bad := bad }
    else pure M
  | .pegasus d off =>
    let (pu, pw, pk, pz) := pegasusCoordinates d p
    let (qu, qw, qk, qz) := pegasusCoordinates d q
    if pu = qu then
      if pw = qw ∧ pk = qk ∧ qz = pz + 1 then do
        let b ← maskBit (qk % 2)
        let edge ← orAt M.edge (T.cell pu (qw * 6 + qk / 2) (qz * 6 + off qu (qk / 2))) b
        pure { M with edge := edge }
      else if pw = qw ∧ pk = qk ^^^ 1 ∧ qz = pz then pure M
      else .error .thrown
    else clearBad T M (qw * 6 + qk / 2) (pw * 6 + pk / 2) (pk % 2) (qk % 2)
  | .zephyr d t =>
    let (pu, pw, pk, pz) := zephyrCoordinates d t p
    let (qu, qw, qk, qz) := zephyrCoordinates d t q
    if pu = qu then
      if pw = qw ∧ pk = qk ∧ qz = pz + 1 then do
        let b ← maskBit qk
        let edge ← orAt M.edge (T.cell qu qw (qz * 2 + qk % 2)) b
        pure { M with edge := edge }
      else if pw = qw ∧ pk = qk ^^^ 1 ∧ (qz = pz ∨ qz + 1 = pz) then pure M
      else .error .thrown
    else clearBad T M qw pw pk qk

/-- `process_edges`. -/
def processEdges (T : Topo) (M : Masks) (edges : List (Nat × Nat)) : B Masks := edges.foldlM (processEdge T) M

/-- The inner loops of `finish_badmask` (util.hpp 622-629): `badmask[q++] &= nodemask[…]`, `n` times with the mask of the other
shore of the cell. -/
def finishShore (node : List Byte) (c : Nat) : Nat → Nat × List Byte → B (Nat × List Byte)
  | 0, s => pure s
  | n + 1, (q, bad) => do
    let m ← at_ node c
    let bad ← andAt bad q m
    finishShore node c n (q + 1, bad)

/-- The cells in the order of the loops over `y` and `x`. -/
def cellOrder (T : Topo) : List (Nat × Nat) :=
  (List.range T.dimY).flatMap fun y => (List.range T.dimX).map fun x => (y, x)

/-- `finish_badmask` (util.hpp 618-631): a missing coupler counts only if both its fragments are present. -/
def finishBadmask (T : Topo) (M : Masks) : B Masks := do
  let r ← (cellOrder T).foldlM (init := (0, M.bad)) fun s c => do
    let s ← finishShore M.node (cellYX T.dimX c.1 c.2 true) T.shore s
    finishShore M.node (cellYX T.dimX c.1 c.2 false) T.shore s
  pure { M with bad := r.2 }

/-- The masks at the start (topo_cache.hpp 64-66). -/
def Masks.blank (T : Topo) : Masks where
  node := List.replicate T.numCells 0
  edge := List.replicate T.numCells 0
  bad := List.replicate (T.numCells * T.shore) 0

/-- The masks `_initialize` fills (topo_cache.hpp 145-154). -/
def buildMasks (T : Topo) (nodes : List Nat) (edges : List (Nat × Nat)) : B Masks := do
  let M ← processNodes T (Masks.blank T) nodes
  let M ← processEdges T M edges
  finishBadmask T M

/-- `compute_bad_edges` for one cell (topo_cache.hpp 171-184): the vertical fragments from number `q` on. -/
def badOfCell (T : Topo) (bad : List Byte) (y x : Nat) : Nat → Nat × List (Nat × Nat) → B (Nat × List (Nat × Nat))
  | 0, s => pure s
  | n + 1, (q, out) => do
    let m ← at_ bad q
    let ks ← bitsLoop 9 m
    badOfCell T bad y x n (q + 1, out ++ ks.map fun k => (q, chimeraLinear T.dimX T.shore y x true k))

/-- `compute_bad_edges` (topo_cache.hpp 167-186). -/
def badEdges (T : Topo) (bad : List Byte) : B (List (Nat × Nat)) := do
  let r ← (cellOrder T).foldlM (init := (0, [])) fun s c => do
    let s ← badOfCell T bad c.1 c.2 T.shore s
    pure (s.1 + T.shore, s.2)
  pure r.2

end Bus
end MM
