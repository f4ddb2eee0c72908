import Verif.Cache.Clique
import Verif.Cache.Biclique

/-! Model of `find_clique_embedding` and `find_biclique_embedding` of minorminer/utils/pegasus.py, zephyr.py and chimera.py. Chains are lists of integer labels; the families of the graphs given are not checked. -/

namespace MM
namespace Cache

/-- An argument decorated with `nodes_or_number`. -/
inductive Shore (α : Type) where
  | number (n : Int)
  | nodes (l : List α)

/-- Exceptions. -/
inductive WErr
  /-- `TypeError`. -/
  | type
  /-- `ValueError`. -/
  | value
  /-- `KeyError`. -/
  | key
  /-- `NetworkXError`. -/
  | networkx
  /-- An exception of the cache code. -/
  | cache (e : Err)
  deriving DecidableEq, Repr

/-- What the caches of `busgraph_cache(g)` hold. -/
structure Board where
  cliques : Except Err Cliques
  bicliques : Except Err Bicliques

variable {α : Type} [DecidableEq α]

/-- The decorator `nodes_or_number` of networkx (external): the list of labels; `int` makes a label of a number. -/
def nodesOrNumber (int : Nat → α) : Shore α → Except WErr (List α)
  | .number n => if n < 0 then .error .networkx else .ok ((List.range n.toNat).map int)
  | .nodes l => .ok l

/-- `isinstance(_a, int)`. -/
def Shore.isNumber : Shore α → Bool
  | .number _ => true
  | .nodes _ => false

/-- A dictionary from its items. -/
def toDict {κ β : Type} [DecidableEq κ] (items : List (κ × β)) : Dict κ β := items.foldl (fun d p => dset d p.1 p.2) []

/-- An exception of the cache code is passed on. -/
def ofCache {β : Type} : Except Err β → Except WErr β
  | .ok b => .ok b
  | .error e => .error (.cache e)

/-- `_get_target_graph` of pegasus.py 25-30 and zephyr.py 25-30; `generate m` is the graph generator of dwave-graphs (external). -/
def squareTarget {G : Type} (generate : Int → G) (m : Option Int) (given : Option G) : Except WErr G :=
  match given with
  | some g => .ok g
  | none =>
    match m with
    | none => .error .type
    | some m => .ok (generate m)

/-- A parameter `m`, `n` or `t` of the Chimera functions. -/
inductive Param where
  | none
  | int (i : Int)
  | other

/-- The checks of one parameter (chimera.py 256-259, 264-267, 271-274). -/
def Param.positive : Param → Except WErr Nat
  | .int i => if i ≤ 0 then .error .value else .ok i.toNat
  | _ => .error .type

/-- The checks of one parameter that has a default (chimera.py 261-267, 268-274). -/
def Param.orElse (default : Nat) : Param → Except WErr Nat
  | .none => .ok default
  | p => p.positive

/-- `_get_target_graph` (chimera.py 248-279) with a graph to construct; `generate m n t edges` is `chimera_graph` of dwave-graphs (external). -/
def chimeraTarget {G E : Type} (generate : Nat → Nat → Nat → Option E → G) (m n t : Param) (edges : Option E) (given : Option G) : Except WErr G :=
  match given with
  | some g => if edges.isSome then .error .value else .ok g
  | none => do
    let m ← m.positive
    let n ← n.orElse m
    let t ← t.orElse 4
    pure (generate m n t edges)

/-- `find_clique_embedding` (pegasus.py 64-71, zephyr.py 62-69, chimera.py 89-96), the target graph being `target`. -/
def cliqueEmbedding (int : Nat → α) (target : Except WErr Board) (k : Shore α) : Except WErr (Dict α (List Nat)) := do
  let nodes ← nodesOrNumber int k
  let g ← target
  let c ← ofCache g.cliques
  let items ← ofCache (find c nodes)
  let embedding := toDict items
  if embedding.length ≠ nodes.length then .error .value else pure embedding

/-- `embedding[nodes.index(x) + offset]` for one `x` of a dict comprehension (pegasus.py 139-140, zephyr.py 133-134, chimera.py 179-180). -/
def pickChain (embedding : Dict Nat (List Nat)) (nodes : List α) (offset : Nat) (d : Dict α (List Nat)) (x : α) : Except WErr (Dict α (List Nat)) :=
  match nodes.idxOf? x with
  | none => .error .value
  | some i =>
    match dget embedding (i + offset) with
    | none => .error .key
    | some c => .ok (dset d x c)

/-- The labels of the second shore (pegasus.py 127-128, zephyr.py 121-122, chimera.py 167-168). -/
def secondShore (int : Nat → α) (a b : Shore α) (anodes bnodes : List α) : List α :=
  if a.isNumber && b.isNumber then (List.range bnodes.length).map fun x => int (anodes.length + x) else bnodes

/-- `find_biclique_embedding` (pegasus.py 124-140, zephyr.py 118-134, chimera.py 164-180). -/
def bicliqueEmbedding (int : Nat → α) (target : Except WErr Board) (a b : Shore α) : Except WErr (Dict α (List Nat) × Dict α (List Nat)) := do
  let anodes ← nodesOrNumber int a
  let bnodes ← nodesOrNumber int b
  let bnodes := secondShore int a b anodes bnodes
  if anodes.any (· ∈ bnodes) then .error .value
  else
    let g ← target
    let c ← ofCache g.bicliques
    let items ← ofCache (findBiclique c (List.range anodes.length) (List.range' anodes.length bnodes.length))
    let embedding := toDict items
    if embedding = [] then .error .value
    else
      let left ← anodes.foldlM (pickChain embedding anodes 0) []
      let right ← bnodes.foldlM (pickChain embedding bnodes anodes.length) []
      pure (left, right)

end Cache
end MM
