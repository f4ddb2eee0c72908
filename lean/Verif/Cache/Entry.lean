import Verif.Bus.Find
import Verif.Cache.Disk
import Verif.Cache.Serial
import Verif.Cache.Wrapper
import Verif.Rng.Fast

/-! Model of the function `find_clique_embedding` of the module `minorminer.busclique` (busclique.pyx 47-132), with the constructors it calls (155-167, 819-850, 923-963, 1045-1080) and the cache on disk. -/

namespace MM
namespace Bus

open Cache (Shore Cliques toDict)
open Disk (Req Dir Exn fetch exec execN)

/-- A graph made by `chimera_graph`, `pegasus_graph` or `zephyr_graph`: its lattice, and its nodes and edges in the order in which networkx lists them, with integer labels (labels by coordinates: see `Cache/Label`). -/
structure Target where
  T : Topo
  nodes : List Nat
  edges : List (Nat × Nat)

/-- The argument `seed`: left out, `None`, or a number. -/
inductive SeedArg where
  | absent
  | none
  | int (z : Int)
  deriving DecidableEq, Repr

/-- Exceptions. -/
inductive EErr where
  /-- `ValueError`. -/
  | value
  /-- `NotImplementedError`. -/
  | notImplemented
  /-- `OverflowError`, which the conversion to `uint32_t` raises. -/
  | overflow
  /-- What goes wrong in the C++ code. -/
  | code (f : Fault)
  /-- An exception of the cache on disk. -/
  | disk (e : Exn)
  /-- An exception of the cache in memory. -/
  | memory (e : Cache.Err)
  deriving DecidableEq, Repr

/-- What is the same in all calls of a program: the numbers the generator draws for a lattice, a seed and masks (after construction, and after `reset`), `std::sort`, a bound for the rounds of loops, and `__lru_size`. -/
structure Build where
  draws : Topo → BitVec 64 → Masks → Draws × Draws
  S : Sorting
  fuel : Nat
  limit : Nat

/-- What may differ between calls with the same arguments: the bytes of `os.urandom`, and what memory held before the identifier was written. -/
structure Chance where
  entropy : BitVec 32
  junk : Nat → List Byte

/-- The arguments of a call. A graph that is not from one of the three generators is `none`. -/
structure Question (α : Type) where
  nodes : Shore α
  g : Option Target
  seed : SeedArg
  useCache : Bool

/-- `_num_nodes(nn)` (busclique.pyx 47-64): the tuple of labels; `int` makes a label of a number. The number returned with it is the length of the tuple, or a negative number if that is what was given; there is no clique with that
many nodes in the cache, and without the cache nothing is taken from an empty tuple: either way the result is an empty dictionary, as it is for 0. -/
def numNodes {α : Type} (int : Nat → α) : Shore α → List α
  | .number n => (List.range n.toNat).map int
  | .nodes l => l

/-- The seed that the constructor gets (busclique.pyx 125-132). -/
def seedGiven (useCache : Bool) : SeedArg → Option Int
  | .absent => if useCache then some 0 else none
  | .none => none
  | .int z => some z

/-- `internal_seed` (busclique.pyx 823-828, 931-936, 1053-1058). -/
def internalSeed (entropy : BitVec 32) : Option Int → Except EErr (BitVec 32)
  | none => .ok entropy
  | some z => if 0 ≤ z ∧ z < 2 ^ 32 then .ok (BitVec.ofInt 32 z) else .error .overflow

/-- The size of the tile (busclique.pyx 819-821, 1050-1052); Pegasus graphs have only one. -/
def tileSupported : Topo → Bool
  | .chimera _ _ t => decide (t ≤ 8)
  | .pegasus _ _ => true
  | .zephyr _ t => decide (t ≤ 4)

/-- The start of the constructors: the tile and the seed, which is amplified to 64 bits (busclique.pyx 816-830, 927-938, 1045-1060; util.hpp 162-163). -/
def openGraph (entropy : BitVec 32) (g : Target) (seed : Option Int) : Except EErr (BitVec 64) :=
  if tileSupported g.T then
    match internalSeed entropy seed with
    | .ok s => .ok (Rng.amplify s)
    | .error e => .error e
  else .error .notImplemented

/-- The masks, with the draws for them. -/
def drawsFor (P : Build) (g : Target) (seed : BitVec 64) : B (Draws × Draws) := do
  let M ← buildMasks g.T g.nodes g.edges
  pure (P.draws g.T seed M)

/-- What `busgraph_cache` asks of the cache on disk (busclique.pyx 166, 170-179, 463-464). `mask_bound` is 64 (topo_cache.hpp 67). -/
def cacheRequest (P : Build) (junk : Nat → List Byte) (g : Target) (seed : BitVec 64) : B (Req (Family × BitVec 64) (List Byte) Cliques) := do
  let D ← drawsFor P g seed
  let id ← graphId junk g.T seed g.nodes g.edges
  let embs ← bestCliques g.T 64 D.1 D.2 g.nodes g.edges
  pure ⟨id, shortCode g.T id, false, some (Cache.make embs)⟩

/-- The directory of the clique caches. -/
abbrev Store := Dir (Family × BitVec 64) (List Byte) Cliques

section
variable {α : Type} [DecidableEq α]

/-- The request to the cache on disk that a call makes; `none` if it makes none. -/
def requestOf (P : Build) (c : Chance) (q : Question α) : Except EErr (Option (Req (Family × BitVec 64) (List Byte) Cliques)) :=
  match q.g with
  | none => .error .value
  | some g =>
    match openGraph c.entropy g (seedGiven q.useCache q.seed) with
    | .error e => .error e
    | .ok seed =>
      if q.useCache then
        match cacheRequest P c.junk g seed with
        | .error f => .error (.code f)
        | .ok r => .ok (some r)
      else .ok none

/-- What the result is when the cache has been fetched (busclique.pyx 572-580, without `relabel`). -/
def fromCache (labels : List α) : Except Exn Cliques → Except EErr (Cache.Dict α (List Nat))
  | .error e => .error (.disk e)
  | .ok cl =>
    match Cache.find cl labels with
    | .error e => .error (.memory e)
    | .ok items => .ok (toDict items)

/-- The search without a cache (busclique.pyx 887-898, 1000-1011, 1118-1129, without `relabel`). -/
def oneShot (P : Build) (entropy : BitVec 32) (g : Target) (seed : Option Int) (labels : List α) : Except EErr (Cache.Dict α (List Nat)) :=
  match openGraph entropy g seed with
  | .error e => .error e
  | .ok s =>
    match (do
      let D ← drawsFor P g s
      findUncached P.S P.fuel g.T 64 D.1 D.2 g.nodes g.edges labels : B (List (α × List Nat))) with
    | .error f => .error (.code f)
    | .ok items => .ok (toDict items)

/-- `find_clique_embedding(nodes, g, seed, use_cache)` (busclique.pyx 67-132): the result, and the directory afterwards. -/
def ask (P : Build) (int : Nat → α) (c : Chance) (q : Question α) (d : Store) : Except EErr (Cache.Dict α (List Nat)) × Store :=
  match requestOf P c q with
  | .error e => (.error e, d)
  | .ok (some r) =>
    let x := exec (fetch P.limit r) d
    (fromCache (numNodes int q.nodes) x.1, x.2)
  | .ok none =>
    match q.g with
    | none => (.error .value, d)
    | some g => (oneShot P c.entropy g (seedGiven q.useCache q.seed) (numNodes int q.nodes), d)

/-- The directory after a call whose process was killed after `n` operations on files. -/
def askKilled (P : Build) (c : Chance) (q : Question α) (n : Nat) (d : Store) : Store :=
  match requestOf P c q with
  | .ok (some r) => execN n (fetch P.limit r) d
  | _ => d

/-- Calls one after another; `some n` for a process that is killed after `n` operations on files. The calls that were not killed, with their results. -/
def asks (P : Build) (int : Nat → α) : List (Question α × Chance × Option Nat) → Store → List (Question α × Except EErr (Cache.Dict α (List Nat)))
  | [], _ => []
  | (q, c, none) :: h, d => (q, (ask P int c q d).1) :: asks P int h (ask P int c q d).2
  | (q, c, some n) :: h, d => asks P int h (askKilled P c q n d)

end

end Bus
end MM
