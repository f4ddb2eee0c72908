import Verif.Cache.Regular
import Verif.Cache.Serial

/-! Model of `mine_clique_embeddings` (minorminer/busclique.pyx 1209-1329), with the caches on disk as a dictionary from identifiers; removing old files is left out (see `Cache/Disk`).
Logging is left out. Chains are lists of integer labels. -/

namespace MM
namespace Cache

/-- A quality function, as the comparison `quality_function(a) > quality_function(b)`. -/
abbrev Better := Emb → Emb → Bool

/-- The choice for one size with a quality function (busclique.pyx 385-405): the key and whether it is of `self`. -/
def pickSizeBy (better : Better) (other self : Cliques) (i : Nat) : Except Err (Nat × Bool) :=
  match dget other.size i, dget self.size i with
  | some k0, none => .ok (k0, false)
  | none, some k1 => .ok (k1, true)
  | none, none => .error .key
  | some k0, some k1 =>
    if i = 0 then .ok (k1, true)
    else do
      let e0 ← rawAt other k0
      let e1 ← rawAt self k1
      if better (e0.take i) (e1.take i) then pure (k0, false) else pure (k1, true)

/-- `merge_clique_cache` (busclique.pyx 351-427) into a cache in memory with a quality function, or `None`, without writing. -/
def mergeBy (quality : Option Better) (other self : Cliques) : Except Err Cliques :=
  match quality with
  | none => merge other self
  | some better => mergeWith (pickSizeBy better other self) other self

/-- `max(map(len, emb))` of `_default_quality_function` (busclique.pyx 1162). It is called for at least one chain only. -/
def maxLen (e : Emb) : Nat := e.foldl (fun m c => max m c.length) 0

/-- `_default_quality_function` (busclique.pyx 1145-1163), as a comparison of pairs. -/
def defaultBetter : Better := fun a b =>
  decide (maxLen a < maxLen b) || (decide (maxLen a = maxLen b) && decide ((b.filter fun c => c.length = maxLen b).length < (a.filter fun c => c.length = maxLen a).length))

/-- How mining ends without a result. -/
inductive Failure
  /-- An exception of the cache code, or `ValueError` of `_regularize_embedding`. -/
  | err (e : Err)
  /-- `TypeError`. -/
  | type
  /-- What the heuristic raised. -/
  | heuristic
  /-- It does not return. -/
  | endless
  deriving DecidableEq, Repr

/-- An exception of the cache code. -/
def lift {α : Type} : Except Err α → Except Failure α
  | .ok a => .ok a
  | .error e => .error (.err e)

/-- The caches on disk by identifier (busclique.pyx 469-480). -/
abbrev Files := Dict (List Bus.Byte) Cliques

/-- What the function is given, and what other parts of the code do for it. -/
structure Mining where
  /-- Nodes and edges of `g`, with integer labels. -/
  nodes : List Nat
  edges : List (Nat × Nat)
  /-- `g.graph['family']`, `['rows']`, `['tile']` and, if there is one, `['cols']`. -/
  family : Bus.Family
  rows : Nat
  tile : Nat
  cols : Option Nat
  /-- `quality_function`. -/
  quality : Option Better
  /-- `regularize`. -/
  regular : Bool
  /-- `heuristic_bound`. -/
  bound : Option Int
  /-- The seeds that `random.randint` draws, `num_seeds` of them (1285). -/
  seeds : List Nat
  /-- The identifier of `busgraph_cache(g, seed)`. -/
  ident : Nat → List Bus.Byte
  /-- What `busgraph_cache(g, seed)._graph.cliques()` returns for `mask_bound`. -/
  computed : Nat → Cliques
  /-- `miner(nx.complete_graph(size), g, **heuristic_args).find_embeddings(heuristic_runs, force=False)`; `none`: it raises an exception. -/
  heuristic : Nat → Option (List Emb)
  /-- `networkx.bipartite.maximum_matching`. -/
  matcher : Matcher

/-- `_ensure_clique_cache()` of a new object for an identifier (busclique.pyx 171-178, 469-480). -/
def fetch (files : Files) (id : List Bus.Byte) (computed : Cliques) : Files × Cliques :=
  match dget files id with
  | some c => (files, c)
  | none => (dset files id computed, computed)

/-- `_regularize_embedding`. -/
def Mining.regularized (M : Mining) (emb : Emb) : Except Failure Emb :=
  match regularize M.matcher (M.nodes.length + 1) M.nodes M.edges emb with
  | none => .error .endless
  | some r => lift r

/-- `bgc.insert_clique_embedding(emb, write_to_disk=False, quality_function=…)` into a cache in memory (busclique.pyx 327-330, 346-349). -/
def insertBy (quality : Option Better) (emb : Emb) (c : Cliques) : Except Failure Cliques := lift (mergeBy quality (insertCache emb) c)

/-- `_regularize_embedding(g, bgc_i.find_clique_embedding(n))`, inserted (busclique.pyx 1290-1292). -/
def Mining.polished (M : Mining) (ci c : Cliques) (n : Nat) : Except Failure Cliques := do
  let items ← lift (find ci (List.range n))
  let emb ← M.regularized (items.map Prod.snd)
  insertBy M.quality emb c

/-- One run of the loop over seeds (busclique.pyx 1283-1292). The cache of `bgc` is blank when it is first used (373). -/
def Mining.polynomial (M : Mining) (st : Files × Cliques) (seed : Nat) : Except Failure (Files × Cliques) := do
  let (files, ci) := fetch st.1 (M.ident seed) (M.computed seed)
  let c ← lift (mergeBy M.quality ci st.2)
  if M.regular then
    let big ← lift (largest ci)
    let c ← (List.range' 3 (big.length + 1 - 3)).foldlM (M.polished ci) c
    pure (files, c)
  else pure (files, c)

/-- `heuristic_bound` (busclique.pyx 1294-1308). For Chimera graphs `g.graph['cols']` raises `KeyError` if there is no such attribute, and otherwise `/` makes a `float`, for which `range` raises `TypeError` (1316). -/
def Mining.heuristicBound (M : Mining) : Except Failure Int :=
  match M.bound with
  | some b => .ok b
  | none =>
    match M.family with
    | .zephyr => .ok (min (8 * M.tile) (2 * M.tile * (M.rows - 1)))
    | .pegasus => .ok (min 36 (12 * (M.rows - 1)))
    | .chimera =>
      match M.cols with
      | none => .error (.err .key)
      | some _ => .error .type

/-- The quality function for the embeddings of the heuristic (busclique.pyx 1310-1311). -/
def Mining.heuristicQuality (M : Mining) : Better :=
  match M.quality with
  | some b => b
  | none => defaultBetter

/-- One embedding that the heuristic found (busclique.pyx 1320-1325). -/
def Mining.take (M : Mining) (c : Cliques) (emb : Emb) : Except Failure Cliques :=
  if emb = [] then .ok c
  else do
    let c ← insertBy (some M.heuristicQuality) emb c
    if M.regular then
      let emb1 ← M.regularized emb
      insertBy (some M.heuristicQuality) emb1 c
    else pure c

/-- One run of the loop over sizes (busclique.pyx 1316-1325). -/
def Mining.heuristics (M : Mining) (c : Cliques) (size : Nat) : Except Failure Cliques :=
  match M.heuristic size with
  | none => .error .heuristic
  | some embs => embs.foldlM M.take c

/-- `mine_clique_embeddings` (busclique.pyx 1282-1329): the caches on disk afterwards, and the cache of the object returned. -/
def mine (M : Mining) (files : Files) : Except Failure (Files × Cliques) := do
  let (files, c) ← M.seeds.foldlM M.polynomial (files, blank)
  let b ← M.heuristicBound
  let c ← (List.range' 3 (b + 1 - 3).toNat).foldlM M.heuristics c
  let c ← insertBy none [] c
  pure (dset files (M.ident 0) c, c)

end Cache
end MM
