import Verif.Bus.Biclique
import Verif.Cache.Entry

/-! Model of the queries for bicliques to an object of the class `busgraph_cache` (busclique.pyx 155-167, 181-184, 582-666) with the cache on disk. -/

namespace MM
namespace Bus

open Cache (Shore Bicliques toDict)
open Disk (Req Dir Exn fetch exec execN)

/-- `find_biclique_embedding(nn, mm)` and `largest_balanced_biclique()`. Numbers are not negative. -/
inductive BiQuery (α : Type) where
  | pair (nn mm : Shore α)
  | largest

/-- A query to an object `busgraph_cache(g, seed)` made for it. An object keeps what it fetched, so that the answers to further queries to the same object come from the same bicliques. -/
structure BiQuestion (α : Type) where
  g : Option Target
  seed : SeedArg
  query : BiQuery α

/-- The directory of the biclique caches. -/
abbrev BiStore := Dir (Family × BitVec 64) (List Byte) Bicliques

/-- `_num_nodes(mm, offset = n)` (busclique.pyx 46-64, 639). -/
def laterNodes {α : Type} (int : Nat → α) (n : Nat) : Shore α → List α
  | .number m => (List.range m.toNat).map fun x => int (n + x)
  | .nodes l => l

/-- The order in which the items of an `unordered_map` are listed, which depends on the order in which they were inserted. -/
abbrev Listing := List ((Nat × Nat) × Cache.Emb) → List ((Nat × Nat) × Cache.Emb)

/-- What `busgraph_cache` asks of the cache on disk (busclique.pyx 166, 181-184, 463-464, 724-757). `mask_bound` is 64 (topo_cache.hpp 67). -/
def biRequest (P : Build) (ord : Listing) (junk : Nat → List Byte) (g : Target) (seed : BitVec 64) : B (Req (Family × BitVec 64) (List Byte) Bicliques) := do
  let D ← drawsFor P g seed
  let id ← graphId junk g.T seed g.nodes g.edges
  let embs ← bestBicliques g.T 64 D.1 D.2 g.nodes g.edges
  pure ⟨id, shortCode g.T id, false, (Cache.makeBicliques (ord embs)).toOption⟩

section
variable {α : Type} [DecidableEq α]

/-- The request to the cache on disk that a query makes. -/
def biRequestOf (P : Build) (ord : Listing) (c : Chance) (q : BiQuestion α) : Except EErr (Req (Family × BitVec 64) (List Byte) Bicliques) :=
  match q.g with
  | none => .error .value
  | some g =>
    match openGraph c.entropy g (seedGiven true q.seed) with
    | .error e => .error e
    | .ok seed =>
      match biRequest P ord c.junk g seed with
      | .error f => .error (.code f)
      | .ok r => .ok r

/-- The answer when the cache has been fetched (busclique.pyx 597-607, 634-666, without `relabel`). -/
def fromBicliques (int : Nat → α) : BiQuery α → Except Exn Bicliques → Except EErr (Cache.Dict α (List Nat))
  | _, .error e => .error (.disk e)
  | .pair nn mm, .ok b =>
    match Cache.findBiclique b (numNodes int nn) (laterNodes int (numNodes int nn).length mm) with
    | .error e => .error (.memory e)
    | .ok items => .ok (toDict items)
  | .largest, .ok b =>
    match Cache.largestBalanced b with
    | .error e => .error (.memory e)
    | .ok emb => .ok (toDict (((List.range emb.length).map int).zip emb))

/-- A query: the answer, and the directory afterwards. -/
def askBi (P : Build) (ord : Listing) (int : Nat → α) (c : Chance) (q : BiQuestion α) (d : BiStore) : Except EErr (Cache.Dict α (List Nat)) × BiStore :=
  match biRequestOf P ord c q with
  | .error e => (.error e, d)
  | .ok r =>
    let x := exec (fetch P.limit r) d
    (fromBicliques int q.query x.1, x.2)

/-- The directory after a query whose process was killed after `n` operations on files. -/
def askBiKilled (P : Build) (ord : Listing) (c : Chance) (q : BiQuestion α) (n : Nat) (d : BiStore) : BiStore :=
  match biRequestOf P ord c q with
  | .error _ => d
  | .ok r => execN n (fetch P.limit r) d

/-- Queries one after another; `some n` for a process that is killed after `n` operations on files. The queries that were not killed, with their answers. -/
def asksBi (P : Build) (ord : Listing) (int : Nat → α) : List (BiQuestion α × Chance × Option Nat) → BiStore → List (BiQuestion α × Except EErr (Cache.Dict α (List Nat)))
  | [], _ => []
  | (q, c, none) :: h, d => (q, (askBi P ord int c q d).1) :: asksBi P ord int h (askBi P ord int c q d).2
  | (q, c, some n) :: h, d => asksBi P ord int h (askBiKilled P ord c q n d)

end

end Bus
end MM
