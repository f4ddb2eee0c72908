import Verif.Bus.Topo

/-! Model of the fragment graph, which `busgraph_cache.draw_fragment_embedding` draws (include/busclique/topo_cache.hpp 84-135, util.hpp
317-331, 439-441, 579-593, 632-639, minorminer/busclique.pyx 668-676, 900-912, 1013-1025, 1131-1143). -/

namespace MM
namespace Bus

/-- The loop over `k` of one shore in `fragment_nodes` (topo_cache.hpp 90-95, 96-101), from `k` on: number `q` is listed if its bit is
set in the mask of cell `c`. -/
def shoreNodes (node : List Byte) (c : Nat) : Nat → Nat → Nat × List Nat → B (Nat × List Nat)
  | 0, _, s => pure s
  | n + 1, k, (q, out) => do
    let m ← at_ node c
    let b ← maskBit k
    shoreNodes node c n (k + 1) (q + 1, if m &&& b = 0 then out else out ++ [q])

/-- `fragment_nodes()` (topo_cache.hpp 84-105). -/
def fragmentNodes (T : Topo) (M : Masks) : B (List Nat) := do
  let r ← (cellOrder T).foldlM (init := (0, [])) fun s c => do
    let s ← shoreNodes M.node (T.cell false c.2 c.1) T.shore 0 s
    shoreNodes M.node (T.cell true c.1 c.2) T.shore 0 s
  pure r.2

/-- The loop over `k1` in `fragment_edges` (topo_cache.hpp 118-121), from `k1` on. -/
def crossEdges (T : Topo) (M : Masks) (y x q : Nat) : Nat → Nat → List (Nat × Nat) → B (List (Nat × Nat))
  | 0, _, out => pure out
  | n + 1, k1, out => do
    let m ← at_ M.node (T.cell true y x)
    let b ← maskBit k1
    let bad ← at_ M.bad q
    crossEdges T M y x q n (k1 + 1) (if m &&& b &&& ~~~bad = 0 then out else out ++ [(q, chimeraLinear T.dimX T.shore y x true k1)])

/-- A coupler to the fragment before (topo_cache.hpp 115-116, 127-128). For a coupler back from the first row or column
`y-1` or `x-1` would wrap around; it counts as undefined. -/
def backEdge (m b : Byte) (z : Nat) (e : Nat × Nat) (out : List (Nat × Nat)) : B (List (Nat × Nat)) :=
  if m &&& b = 0 then pure out else if z = 0 then .error .ub else pure (out ++ [e])

/-- The couplers of a vertical fragment inside of its cell (topo_cache.hpp 117-122). -/
def cellEdges (T : Topo) (M : Masks) (m b : Byte) (y x q : Nat) (out : List (Nat × Nat)) : B (List (Nat × Nat)) :=
  if m &&& b = 0 then pure out else crossEdges T M y x q T.shore 0 out

/-- The loop over `k` of the vertical shore in `fragment_edges` (topo_cache.hpp 114-125). -/
def verticalEdges (T : Topo) (M : Masks) (y x : Nat) : Nat → Nat → Nat × List (Nat × Nat) → B (Nat × List (Nat × Nat))
  | 0, _, s => pure s
  | n + 1, k, (q, out) => do
    let me ← at_ M.edge (T.cell false x y)
    let b ← maskBit k
    let out ← backEdge me b y (q, chimeraLinear T.dimX T.shore (y - 1) x false k) out
    let mn ← at_ M.node (T.cell false x y)
    let out ← cellEdges T M mn b y x q out
    verticalEdges T M y x n (k + 1) (q + 1, out)

/-- The loop over `k` of the horizontal shore in `fragment_edges` (topo_cache.hpp 126-131). -/
def horizontalEdges (T : Topo) (M : Masks) (y x : Nat) : Nat → Nat → Nat × List (Nat × Nat) → B (Nat × List (Nat × Nat))
  | 0, _, s => pure s
  | n + 1, k, (q, out) => do
    let me ← at_ M.edge (T.cell true y x)
    let b ← maskBit k
    let out ← backEdge me b x (q, chimeraLinear T.dimX T.shore y (x - 1) true k) out
    horizontalEdges T M y x n (k + 1) (q + 1, out)

/-- `fragment_edges()` (topo_cache.hpp 107-135). -/
def fragmentEdges (T : Topo) (M : Masks) : B (List (Nat × Nat)) := do
  let r ← (cellOrder T).foldlM (init := (0, [])) fun s c => do
    let s ← verticalEdges T M c.1 c.2 T.shore 0 s
    horizontalEdges T M c.1 c.2 T.shore 0 s
  pure r.2

/-- The arguments `m`, `n`, `t`, `node_list` and `edge_list` of `chimera_graph`. -/
structure FragmentSpec where
  m : Nat
  n : Nat
  t : Nat
  nodes : List Nat
  edges : List (Nat × Nat)
  deriving DecidableEq, Repr

/-- `fragment_graph_spec` (busclique.pyx 900-906, 1013-1019, 1131-1137) of the bus graph made of a graph. -/
def fragmentGraphSpec (T : Topo) (nodes : List Nat) (edges : List (Nat × Nat)) : B FragmentSpec := do
  let M ← buildMasks T nodes edges
  let ns ← fragmentNodes T M
  let es ← fragmentEdges T M
  pure { m := T.dimY, n := T.dimX, t := T.shore, nodes := ns, edges := es }

/-- The loop `for(z = z0 + n; z-->z0;)` (util.hpp 324-329, 586-591). -/
def fragmentLoop (T : Topo) (u : Bool) (w k z0 : Nat) : Nat → List Nat
  | 0 => []
  | n + 1 => T.frag u w (z0 + n) k :: fragmentLoop T u w k z0 n

/-- `fragment_nodes(q)` of a topology (util.hpp 317-331, 439-441, 579-593). -/
def Topo.fragments : Topo → Nat → List Nat
  | .chimera _ _ _, q => [q]
  | T@(.pegasus d off), q =>
    let c := pegasusFirst d off q
    fragmentLoop T c.1 c.2.1 c.2.2.1 c.2.2.2 6
  | T@(.zephyr d t), q =>
    let c := zephyrFirst d t q
    fragmentLoop T c.1 c.2.1 c.2.2.1 c.2.2.2 2

/-- `fragment_nodes(nodes)` (util.hpp 632-639, busclique.pyx 908-912). -/
def Topo.chainFragments (T : Topo) (c : List Nat) : List Nat := c.flatMap T.fragments

/-- `f_emb` of `draw_fragment_embedding` (busclique.pyx 672-675), in numbers of qubits. -/
def fragmentEmbedding {α : Type} (T : Topo) (emb : List (α × List Nat)) : List (α × List Nat) := emb.map fun p => (p.1, T.chainFragments p.2)

end Bus
end MM
