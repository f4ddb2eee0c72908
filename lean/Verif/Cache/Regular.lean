import Verif.Cache.Clique

/-! Model of `_regularize_embedding` (minorminer/busclique.pyx 1165-1207). The dictionary is the list of its chains, in the order of its items; a key is the position in it. -/

namespace MM
namespace Cache

/-- A node of the matching graph that stands for place `j` of chain `i`: `(i, 'chain', j)` (1195). -/
abbrev Place := Nat × Nat

/-- `networkx.bipartite.maximum_matching(matching_graph, top_nodes)` (1198): given `top_nodes` and the edges of the graph, the partner of each of `top_nodes`, if it has one. -/
abbrev Matcher := List Place → List (Place × Nat) → Place → Option Nat

/-- `nx.node_boundary(g, chain, remainder)` (1191): the nodes of `remainder` outside of the chain with a neighbour in it. -/
def boundary (edges : List (Nat × Nat)) (chain rest : List Nat) : List Nat :=
  rest.filter fun q => !chain.contains q && chain.any fun p => edges.contains (p, q) || edges.contains (q, p)

/-- The places that a chain still has to fill, if it can grow at all (1189-1196); `i` is its key. -/
def places (edges : List (Nat × Nat)) (maxLength : Nat) (rest : List Nat) (i : Nat) (chain : List Nat) : List Place :=
  if chain.length = maxLength then []
  else if boundary edges chain rest = [] then []
  else (List.range' chain.length (maxLength - chain.length)).map fun j => (i, j)

/-- `top_nodes` (1187-1196). -/
def topNodes (edges : List (Nat × Nat)) (maxLength : Nat) (rest : List Nat) (emb : Emb) : List Place :=
  emb.zipIdx.flatMap fun p => places edges maxLength rest p.2 p.1

/-- The edges of `matching_graph` (1197). -/
def matchEdges (edges : List (Nat × Nat)) (maxLength : Nat) (rest : List Nat) (emb : Emb) : List (Place × Nat) :=
  emb.zipIdx.flatMap fun p => (places edges maxLength rest p.2 p.1).flatMap fun v => (boundary edges p.1 rest).map fun q => (v, q)

/-- The chains and the nodes that no chain uses, `remainder`. -/
structure Growing where
  emb : Emb
  rest : List Nat
  deriving DecidableEq, Repr

/-- The node `matched` is appended to its chain and removed from `remainder` (1200-1204). -/
def grow (s : Growing) (v : Place) : Option Nat → Growing
  | none => s
  | some q => ⟨s.emb.modify v.1 (· ++ [q]), s.rest.filter (· ≠ q)⟩

/-- `len(set(map(len, emb.values()))) != 1` (1180, 1206). -/
def uneven (emb : Emb) : Bool := (emb.map List.length).dedup.length ≠ 1

/-- The loop (1184-1206). `none`: it did not end within `fuel` rounds. -/
def growLoop (matcher : Matcher) (edges : List (Nat × Nat)) (maxLength : Nat) : Nat → Growing → Option Growing
  | 0, _ => none
  | fuel + 1, s =>
    let top := topNodes edges maxLength s.rest s.emb
    let partner := matcher top (matchEdges edges maxLength s.rest s.emb)
    let s' := top.foldl (fun s v => grow s v (partner v)) s
    if top.any fun v => (partner v).isSome then
      if uneven s'.emb then growLoop matcher edges maxLength fuel s' else some s'
    else some s'

/-- `max(map(len, emb.values()))` (1181); `none` for no chains. -/
def longest? : Emb → Option Nat
  | [] => none
  | c :: cs => some (cs.foldl (fun m c => max m c.length) c.length)

/-- `_regularize_embedding` (1165-1207): `max` of nothing raises `ValueError`. `none`: the loop did not end within `fuel` rounds. -/
def regularize (matcher : Matcher) (fuel : Nat) (nodes : List Nat) (edges : List (Nat × Nat)) (emb : Emb) : Option (Except Err Emb) :=
  match longest? emb with
  | none => some (.error .value)
  | some maxLength =>
    let rest := nodes.filter fun q => !emb.any fun c => c.contains q
    if uneven emb then (growLoop matcher edges maxLength fuel ⟨emb, rest⟩).map fun s => .ok s.emb
    else some (.ok emb)

end Cache
end MM
