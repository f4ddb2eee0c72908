import Verif.Cache.Dict
import Mathlib.Data.List.Sort

/-! Model of the clique cache of `busgraph_cache` (minorminer/busclique.pyx). Chains are lists of integer labels (labels: see `Cache/Label`). -/

namespace MM
namespace Cache

/-- Python exceptions that the cache code can meet. -/
inductive Err | key | index | value | os
  deriving DecidableEq, Repr

/-- An embedding as the cache stores it: the list of its chains. -/
abbrev Emb := List (List Nat)

/-- The dictionary with the fields `raw`, `size` and `length` (busclique.pyx 700). -/
structure Cliques where
  raw : List Emb
  size : Dict Nat Nat
  length : Dict Nat Nat
  deriving DecidableEq, Repr

/-- The loop over `range(maxsize, -1, -1)` with `setdefault` (busclique.pyx 697-699), from index `i` on. -/
def sizeLoop (length : Nat) : Nat → Dict Nat Nat → Dict Nat Nat
  | 0, d =>
    match dget d 0 with
    | some _ => d
    | none => dset d 0 length
  | i + 1, d =>
    match dget d (i + 1) with
    | some v => if v ≠ length then d else sizeLoop length i d
    | none => sizeLoop length i (dset d (i + 1) length)

/-- The loop of `_make_clique_cache` (busclique.pyx 693-699) from number `length` on. -/
def makeLoop : List Emb → Nat → Nat → Cliques → Cliques
  | [], _, _, c => c
  | e :: es, length, maxsize, c =>
    let m := max e.length maxsize
    makeLoop es (length + 1) m ⟨c.raw ++ [e], sizeLoop length m c.size, dset c.length length length⟩

/-- `_make_clique_cache` (busclique.pyx 678-700). -/
def make (embs : List Emb) : Cliques := makeLoop embs 0 0 ⟨[], [], []⟩

/-- `raw[key]`. -/
def rawAt (c : Cliques) (key : Nat) : Except Err Emb :=
  match c.raw[key]? with
  | some e => .ok e
  | none => .error .index

/-- `find_clique_embedding` (busclique.pyx 572-580) for the node labels `nodes`, which `_num_nodes` made; the result is the list of items. -/
def find {α : Type} (c : Cliques) (nodes : List α) : Except Err (List (α × List Nat)) :=
  match dget c.size nodes.length with
  | none => .ok []
  | some key => do
    let e ← rawAt c key
    pure (nodes.zip e)

/-- The larger one. -/
def maxStep : Option Nat → Nat → Option Nat
  | none, k => some k
  | some m, k => some (max m k)

/-- `max` of the keys; `none` for an empty dictionary. -/
def maxKey (d : Dict Nat Nat) : Option Nat := (d.map Prod.fst).foldl maxStep none

/-- `largest_clique` (busclique.pyx 522-528): the chains of nodes 0, 1, … -/
def largest (c : Cliques) : Except Err Emb :=
  match maxKey c.size with
  | none => .ok []
  | some k =>
    match dget c.size k with
    | none => .error .key
    | some key => rawAt c key

/-- `largest_clique_by_chainlength` (busclique.pyx 546-553). -/
def largestByLength (c : Cliques) (chainlength : Nat) : Except Err Emb :=
  match maxKey c.length with
  | none => .ok []
  | some k =>
    if 0 < chainlength ∧ chainlength ≤ k then
      match dget c.length chainlength with
      | none => .error .key
      | some key => rawAt c key
    else .ok []

/-- `get_clique_cache(sparse=True, compress=False)` (busclique.pyx 253-257). -/
def getSparse (c : Cliques) : Except Err (List (Nat × Emb)) :=
  c.size.mapM fun p => do
    let e ← rawAt c p.2
    pure (p.1, e.take p.1)

/-- `get_clique_cache(sparse=False, compress=False)` (busclique.pyx 253-259); `max` of an empty dictionary raises `ValueError`. -/
def getDense (c : Cliques) : Except Err (List Emb) :=
  match maxKey c.size with
  | none => .error .value
  | some m => (List.range m).mapM fun i =>
    match dget c.size i with
    | some key => do
      let e ← rawAt c key
      pure (e.take i)
    | none => pure []

/-- `sorted(…, key=len)` (busclique.pyx 330), which is stable. -/
def sortLen (e : Emb) : Emb := e.insertionSort fun c d => c.length ≤ d.length

/-- Length of `emb[-1]`, or 0 (busclique.pyx 340). -/
def lastLength (e : Emb) : Nat :=
  match e.getLast? with
  | some c => c.length
  | none => 0

/-- `insert_clique_embedding(…, direct=True)` (busclique.pyx 327-342) into a cache that is in memory. -/
def insertDirect (c : Cliques) (emb : Emb) : Except Err Cliques :=
  let e := sortLen emb
  let key := c.raw.length
  let raw := c.raw ++ [e]
  let size := dset c.size e.length key
  let length := lastLength e
  match dget c.length length with
  | none => .ok ⟨raw, size, dset c.length length key⟩
  | some k =>
    match raw[k]? with
    | none => .error .index
    | some old => .ok ⟨raw, size, if old.length < e.length then dset c.length length key else c.length⟩

/-- `_make_clique_cache([[]])`, the blank cache (busclique.pyx 173). -/
def blank : Cliques := make [[]]

/-- The cache in memory and the one on disk for the graph. -/
structure Store where
  mem : Option Cliques
  disk : Option Cliques
  deriving DecidableEq, Repr

/-- `_ensure_clique_cache(blank=True)` (busclique.pyx 171-173). -/
def ensureBlank (s : Store) : Store × Cliques :=
  match s.mem with
  | some c => (s, c)
  | none => ({ s with mem := some blank }, blank)

/-- `_ensure_clique_cache()` (busclique.pyx 171-178); `computed` is what `self._graph.cliques` returns. -/
def ensure (computed : Cliques) (s : Store) : Store × Cliques :=
  match s.mem with
  | some c => (s, c)
  | none =>
    match s.disk with
    | some c => (⟨some c, some c⟩, c)
    | none => (⟨some computed, some computed⟩, computed)

/-- `update_clique_cache` (busclique.pyx 277-295) for the embeddings of the given cache object. -/
def update (s : Store) (embs : List Emb) (write : Bool) : Except Err Store := do
  let (s, c) := ensureBlank s
  let c ← embs.foldlM insertDirect c
  pure ⟨some c, if write then some c else s.disk⟩

/-- The state of the loops of `merge_clique_cache`: the dictionary `used` from pairs of a key and 0 (for the other cache) or 1 to new keys. -/
abbrev Used := Dict (Nat × Bool) Nat

/-- `used.setdefault(k, len(used))`. -/
def useKey (used : Used) (k : Nat × Bool) : Used × Nat :=
  match dget used k with
  | some v => (used, v)
  | none => (used ++ [(k, used.length)], used.length)

/-- `raw[key][i - 1]`, its length negated: here a larger length is a worse quality. -/
def chainAt (c : Cliques) (key i : Nat) : Except Err Nat := do
  let e ← rawAt c key
  match e[i - 1]? with
  | some ch => .ok ch.length
  | none => .error .index

/-- The choice for one size (busclique.pyx 385-405) with the default quality: the key and whether it is of `self`. -/
def pickSize (other self : Cliques) (i : Nat) : Except Err (Nat × Bool) :=
  match dget other.size i, dget self.size i with
  | some k0, none => .ok (k0, false)
  | none, some k1 => .ok (k1, true)
  | none, none => .error .key
  | some k0, some k1 =>
    if i = 0 then .ok (k1, true)
    else do
      let q0 ← chainAt other k0 i
      let q1 ← chainAt self k1 i
      if q0 < q1 then pure (k0, false) else pure (k1, true)

/-- The choice for one length (busclique.pyx 412-423). -/
def pickLength (other self : Cliques) (i : Nat) : Except Err (Nat × Bool) :=
  match dget other.length i, dget self.length i with
  | some k0, none => .ok (k0, false)
  | none, some k1 => .ok (k1, true)
  | none, none => .error .key
  | some k0, some k1 => do
    let e0 ← rawAt other k0
    let e1 ← rawAt self k1
    if e1.length < e0.length then pure (k0, false) else pure (k1, true)

/-- `sorted(set(a).union(b))`. -/
def unionKeys (a b : Dict Nat Nat) : List Nat := ((a.map Prod.fst ++ b.map Prod.fst).dedup).insertionSort (· ≤ ·)

/-- One of the two loops: fills a dictionary and `used`. -/
def pickLoop (pick : Nat → Except Err (Nat × Bool)) : List Nat → Used → Dict Nat Nat → Except Err (Used × Dict Nat Nat)
  | [], used, d => .ok (used, d)
  | i :: is, used, d => do
    let k ← pick i
    let (used, v) := useKey used k
    pickLoop pick is used (dset d i v)

/-- `merge_clique_cache` (busclique.pyx 377-427) of another cache into that of `self`, without writing; `pick` is the choice for a size. -/
def mergeWith (pick : Nat → Except Err (Nat × Bool)) (other self : Cliques) : Except Err Cliques := do
  let (used, size) ← pickLoop pick (unionKeys other.size self.size) [] []
  let (used, length) ← pickLoop (pickLength other self) (unionKeys other.length self.length) used []
  let raw ← used.mapM fun p => rawAt (if p.1.2 then self else other) p.1.1
  pure ⟨raw, size, length⟩

/-- `merge_clique_cache` (busclique.pyx 377-427) without writing, with the default quality. -/
def merge (other self : Cliques) : Except Err Cliques := mergeWith (pickSize other self) other self

/-- `merge_clique_cache` with its effect on memory and disk (busclique.pyx 373, 427-429). -/
def mergeStore (s : Store) (other : Cliques) (write : Bool) : Except Err Store := do
  let (s, c) := ensureBlank s
  let c ← merge other c
  pure ⟨some c, if write then some c else s.disk⟩

/-- The cache that `insert_clique_embedding` merges (busclique.pyx 346-348). -/
def insertCache (emb : Emb) : Cliques :=
  let e := sortLen emb
  let m := e.foldl (fun m c => max m c.length) 0
  make ((List.range (m + 1)).map fun i => e.filter fun c => c.length ≤ i)

/-- `insert_clique_embedding(…, direct=False)` (busclique.pyx 327-330, 346-349). -/
def insertClique (s : Store) (emb : Emb) (write : Bool) : Except Err Store := mergeStore s (insertCache emb) write

end Cache
end MM
