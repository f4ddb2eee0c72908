import Verif.Cache.Clique

/-! Model of the biclique cache of `busgraph_cache` (minorminer/busclique.pyx). Chains are lists of integer labels; `relabel` is left out. -/

namespace MM
namespace Cache

/-- The dictionary with the fields `raw`, `size` and `max_side` (busclique.pyx 756); `top` is `max_side[None]`. -/
structure Bicliques where
  raw : Dict (Nat × Nat) Emb
  size : Dict Nat (Dict Nat (Nat × Nat))
  top : Nat
  maxSide : Dict Nat Nat
  deriving DecidableEq, Repr

/-- `d[k]`. -/
def dat {κ β : Type} [DecidableEq κ] (d : Dict κ β) (k : κ) : Except Err β :=
  match dget d k with
  | some v => .ok v
  | none => .error .key

/-- `max(map(len, emb))` (busclique.pyx 738); `none` for an empty embedding. -/
def longest : Emb → Option Nat
  | [] => none
  | c :: e => some (e.foldl (fun m d => max m d.length) c.length)

/-- `min(map(len, emb))` (busclique.pyx 738). -/
def shortest : Emb → Option Nat
  | [] => none
  | c :: e => some (e.foldl (fun m d => min m d.length) c.length)

/-- The longest and the shortest length; `none` for an empty embedding. -/
def lengthPair (e : Emb) : Option (Nat × Nat) :=
  match longest e, shortest e with
  | some a, some b => some (a, b)
  | _, _ => none

/-- An item of a dict comprehension with an `if`. -/
def addItem {β : Type} (v : Option β) (d : Dict (Nat × Nat) β) (k : Nat × Nat) : Dict (Nat × Nat) β :=
  match v with
  | some v => dset d k v
  | none => d

/-- An embedding that is not empty. -/
def filled (e : Emb) : Option Emb := if e = [] then none else some e

/-- `chainlength` (busclique.pyx 738-739): for each key the longest and the shortest length. -/
def lengthsOf (embs : List ((Nat × Nat) × Emb)) : Dict (Nat × Nat) (Nat × Nat) := embs.foldl (fun d p => addItem (lengthPair p.2) d p.1) []

/-- `raw` (busclique.pyx 737). -/
def rawOf (embs : List ((Nat × Nat) × Emb)) : Dict (Nat × Nat) Emb := embs.foldl (fun d p => addItem (filled p.2) d p.1) []

/-- `_keep_biclique_key` (busclique.pyx 702-722). -/
def keepKey (k0 k1 : Nat × Nat) (chainlength : Dict (Nat × Nat) (Nat × Nat)) : Except Err Bool :=
  if k0 = k1 then .ok true
  else do
    let (long0, short0) ← dat chainlength k0
    let (long1, short1) ← dat chainlength k1
    pure (decide (long0 < long1 ∨ (long0 = long1 ∧ short0 ≤ short1)))

/-- `by_size.setdefault(s0, {})` (busclique.pyx 749). -/
def rowOf (size : Dict Nat (Dict Nat (Nat × Nat))) (s0 : Nat) : Dict Nat (Nat × Nat) :=
  match dget size s0 with
  | some row => row
  | none => []

/-- One round of the loop over `raw.items()` (busclique.pyx 743-751). -/
def sizeStep (chainlength : Dict (Nat × Nat) (Nat × Nat)) (size : Dict Nat (Dict Nat (Nat × Nat))) (key : Nat × Nat) : Except Err (Dict Nat (Dict Nat (Nat × Nat))) := do
  let s0 := if key.1 < key.2 then key.2 else key.1
  let s1 := if key.1 < key.2 then key.1 else key.2
  let row := rowOf size s0
  match dget row s1 with
  | none => pure (dset size s0 (dset row s1 key))
  | some realkey => do
    let keep ← keepKey realkey key chainlength
    pure (if keep then size else dset size s0 (dset row s1 key))

/-- `max` of the keys, which raises `ValueError` for an empty dictionary. -/
def maxKeyOf {β : Type} (d : Dict Nat β) : Except Err Nat :=
  match (d.map Prod.fst).foldl maxStep none with
  | some m => .ok m
  | none => .error .value

/-- `_make_biclique_cache` (busclique.pyx 724-756). -/
def makeBicliques (embs : List ((Nat × Nat) × Emb)) : Except Err Bicliques := do
  let raw := rawOf embs
  let size ← (raw.map Prod.fst).foldlM (sizeStep (lengthsOf embs)) []
  let top ← maxKeyOf size
  let maxSide ← size.foldlM (init := []) fun d p => do
    let m ← maxKeyOf p.2
    pure (dset d p.1 m)
  pure ⟨raw, size, top, maxSide⟩

/-- What is returned for the key that was found (busclique.pyx 657-665). -/
def answerBiclique {α : Type} (N M : List α) (key : Nat × Nat) (emb : Emb) : List (α × List Nat) :=
  let emb0 := emb.take key.1
  let emb1 := emb.drop key.1
  if key.1 ≤ N.length ∧ key.2 ≤ M.length then (N ++ M).zip (emb0.take N.length ++ emb1) else (N ++ M).zip (emb1.take N.length ++ emb0)

/-- `biggest.get(i, 0)` (busclique.pyx 649). -/
def sideMax (c : Bicliques) (i : Nat) : Nat :=
  match dget c.maxSide i with
  | some m => m
  | none => 0

/-- The two loops (busclique.pyx 647-656): the first key that is found. `by_size.get(i, {0: None})` gives no key that is not `None`. -/
def keyFor (c : Bicliques) (n m : Nat) : Option (Nat × Nat) :=
  (List.range' n (c.top + 1 - n)).findSome? fun i =>
    if sideMax c i < m then none else (List.range' m (sideMax c i + 1 - m)).findSome? fun j => dget (rowOf c.size i) j

/-- `find_biclique_embedding` after the exchange of the sides (busclique.pyx 642-666). For `m == 0` both sides are empty, and so is the result. -/
def findSorted {α : Type} (c : Bicliques) (N M : List α) : Except Err (List (α × List Nat)) :=
  if M.length = 0 then .ok []
  else
    match keyFor c N.length M.length with
    | none => .ok []
    | some key => do
      let emb ← dat c.raw key
      pure (answerBiclique N M key emb)

/-- `find_biclique_embedding` (busclique.pyx 609-666) for the labels `nn` and `mm`, which `_num_nodes` made. -/
def findBiclique {α : Type} (c : Bicliques) (nn mm : List α) : Except Err (List (α × List Nat)) :=
  if mm.length < nn.length then findSorted c mm nn else findSorted c nn mm

/-- `max(embs, key=lambda x: min(x))` (busclique.pyx 600): the first of the largest. -/
def maxMin : List (Nat × Nat) → Option (Nat × Nat)
  | [] => none
  | k :: ks => some (ks.foldl (fun b k => if min b.1 b.2 < min k.1 k.2 then k else b) k)

/-- `largest_balanced_biclique` (busclique.pyx 597-607): the chains of nodes 0, 1, … -/
def largestBalanced (c : Bicliques) : Except Err Emb :=
  match maxMin (c.raw.map Prod.fst) with
  | none => .error .value
  | some key => do
    let emb ← dat c.raw key
    let emb0 := sortLen (emb.take key.1)
    let emb1 := sortLen ((emb.drop key.1).take key.2)
    let s := min key.1 key.2
    pure (emb0.take s ++ emb1.take s)

end Cache
end MM
