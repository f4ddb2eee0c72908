import Verif.Bus.Yield

/-! Model of `cell_cache::inflate` (include/busclique/cell_cache.hpp), `find_clique` (find_clique.hpp 26-213) and of
`find_clique_embedding` without a cache (minorminer/busclique.pyx 887-898, 1000-1011, 1118-1129). -/

namespace MM
namespace Bus

/-- `score` (cell_cache.hpp 59-62). -/
def cellScore (T : Topo) (C : Masks) (y x : Nat) : B Nat := do
  let k0 ← at_ C.node (T.cell false x y)
  let k1 ← at_ C.node (T.cell true y x)
  let a ← popcount k0
  let b ← popcount k1
  pure (min a b)

/-- The loop of `inflate` (cell_cache.hpp 67-72). The statements that clear bits come after the loop (73-74), where they have no effect. `fuel` bounds the number of rounds. -/
def cellLoop (T : Topo) (y x : Nat) (k0 k1 : Byte) : Nat → List (List Nat) → B (List (List Nat))
  | 0, _ => .error .diverge
  | fuel + 1, emb =>
    if k0 = 0 ∨ k1 = 0 then pure emb
    else do
      let a ← firstBit k0
      let b ← firstBit k1
      let v ← constructLine T false x y y a
      let h ← constructLine T true y x x b
      cellLoop T y x k0 k1 fuel (emb ++ [v ++ h])

/-- `inflate` (cell_cache.hpp 64-75). -/
def inflateCell (T : Topo) (C : Masks) (fuel y x : Nat) : B (List (List Nat)) := do
  let k0 ← at_ C.node (T.cell false x y)
  let k1 ← at_ C.node (T.cell true y x)
  cellLoop T y x k0 k1 fuel []

/-- `find_clique_short` (find_clique.hpp 44-55) for the cells still to be seen; `none` for `false`. -/
def findShort (T : Topo) (C : Masks) (fuel size : Nat) : List (Nat × Nat) → B (Option (List (List Nat)))
  | [] => pure none
  | (y, x) :: cells => do
    let s ← cellScore T C y x
    if size ≤ s then do
      let emb ← inflateCell T C fuel y x
      pure (some emb)
    else findShort T C fuel size cells

/-- `std::sort` by the size of the chains, which may leave chains of equal size in any order (find_clique.hpp 28-29). -/
structure Sorting where
  sort : List (List Nat) → List (List Nat)
  perm : ∀ l, (sort l).Perm l
  sorted : ∀ l, (sort l).Pairwise fun c d => c.length ≤ d.length

/-- `get_maxlen` (find_clique.hpp 26-31): the sorted embedding, and the length of chain number `size`. -/
def getMaxlen (S : Sorting) (emb : List (List Nat)) (size : Nat) : B (List (List Nat) × Nat) := do
  let i ← sub_ size 1
  let c ← at_ (S.sort emb) i
  pure (S.sort emb, c.length)

/-- `get_sol` (find_clique.hpp 33-41); `none` for the largest number. -/
def getSol (S : Sorting) (r : Option (List (List Nat))) (size : Nat) : B (Option (List (List Nat) × Nat)) :=
  match r with
  | none => pure none
  | some emb =>
    if size ≤ emb.length then do
      let p ← getMaxlen S emb size
      pure (some p)
    else pure none

/-- `emb` and `max_length`; `len = none` for the largest number. -/
structure Found where
  emb : List (List Nat)
  len : Option Nat
  deriving DecidableEq, Repr

/-- `l < max_length`. -/
def shorter (l : Nat) : Option Nat → Bool
  | none => true
  | some m => decide (l < m)

/-- `min(l, max_length)`. -/
def minLen (l : Nat) : Option Nat → Nat
  | none => l
  | some m => min l m

/-- The loop over the widths (find_clique.hpp 81-90, 110-119): whether `true` is returned, and what is found. -/
def tryWidths (S : Sorting) (T : Topo) (lines : List Byte) (size : Nat) (F : Found) : List Nat → B (Bool × Found)
  | [] => pure (false, F)
  | w :: ws => do
    let r ← cliqueOf T lines (fun _ => true) w
    let s ← getSol S r size
    match s with
    | none => tryWidths S T lines size F ws
    | some (emb, l) => if shorter l F.len then pure (true, ⟨emb, some l⟩) else tryWidths S T lines size F ws

/-- `maxw` (find_clique.hpp 79-80, 108-109). -/
def maxWidth (T : Topo) (len : Option Nat) : B Nat :=
  match len with
  | none => pure (min T.dimY T.dimX)
  | some l =>
    match T with
    | .zephyr _ _ => pure (min (2 * l + 1) (min T.dimY T.dimX))
    | _ => do
      let l ← sub_ l 1
      pure (min l (min T.dimY T.dimX))

/-- `find_clique_nice` of Chimera and Zephyr after the search for a single cell (find_clique.hpp 75-91, 104-120). -/
def niceWidths (S : Sorting) (T : Topo) (C : Masks) (size : Nat) (F : Found) : B (Bool × Found) :=
  if F.len = some 1 then pure (false, F)
  else do
    let lines ← lineMasks T C
    let maxw ← maxWidth T F.len
    let minw := (size + T.shore - 1) / T.shore
    tryWidths S T lines size F (List.range' minw (maxw + 1 - minw))

/-- `find_clique_nice` of Chimera and Zephyr (find_clique.hpp 65-121). -/
def niceGrid (S : Sorting) (fuel : Nat) (T : Topo) (C : Masks) (size : Nat) (F : Found) : B (Bool × Found) :=
  if size ≤ T.shore then do
    let r ← findShort T C fuel size T.allCells
    match r with
    | some emb => pure (true, ⟨emb, some 1⟩)
    | none => niceWidths S T C size F
  else niceWidths S T C size F

/-- One round of the loop over the lengths (find_clique.hpp 155-172). -/
def lengthStep (S : Sorting) (T : Topo) (lines : List Byte) (size w : Nat) (F : Found) (length : Nat) : B Found := do
  let r ← cliqueOf T lines (checkFor T (some length)) w
  let s ← getSol S r size
  match s with
  | none => pure F
  | some (emb, l) => pure ⟨if shorter l F.len then emb else F.emb, some (minLen length F.len)⟩

/-- The loop over the widths of Pegasus (find_clique.hpp 134-173): at most `n` more rounds from width `w` on. -/
def pegasusWidths (S : Sorting) (T : Topo) (off : Bool → Nat → Nat) (lines : List Byte) (size : Nat) : Nat → Nat → Nat → Found → B Found
  | 0, _, _, F => pure F
  | n + 1, w, maxw, F =>
    if w ≤ maxw then
      match (lengthRange off w).1 with
      | none => pure F
      | some lo =>
        if shorter lo F.len then do
          let r ← cliqueOf T lines (fun _ => true) w
          let s ← getSol S r size
          match s with
          | none => pegasusWidths S T off lines size n (w + 1) maxw F
          | some (emb, l) => do
            let F' ← (List.range' lo (max (minLen l F.len) (lengthRange off w).2 - lo)).foldlM (lengthStep S T lines size w) ⟨if shorter l F.len then emb else F.emb, some (minLen l F.len)⟩
            pegasusWidths S T off lines size n (w + 1) (min maxw (w + 6)) F'
        else pure F
    else pure F

/-- `find_clique_nice` of Pegasus (find_clique.hpp 123-175). -/
def nicePegasus (S : Sorting) (T : Topo) (off : Bool → Nat → Nat) (C : Masks) (size : Nat) (F : Found) : B (Bool × Found) := do
  let lines ← lineMasks T C
  let minw := (size + 1) / 2
  let maxw := min T.dimY T.dimX
  let F ← pegasusWidths S T off lines size (maxw + 1 - minw) minw maxw F
  pure (decide (size ≤ F.emb.length), F)

/-- `find_clique_nice`. -/
def findNice (S : Sorting) (fuel : Nat) (T : Topo) (C : Masks) (size : Nat) (F : Found) : B (Bool × Found) :=
  match T with
  | .pegasus d off => nicePegasus S (.pegasus d off) off C size F
  | T => niceGrid S fuel T C size F

/-- `find_clique` for a `topo_cache` (find_clique.hpp 197-213); `none` for `false`. All masks are made before the first one is used, which makes no difference. -/
def findClique (S : Sorting) (fuel : Nat) (T : Topo) (bound : Nat) (D D' : Draws) (nodes : List Nat) (edges : List (Nat × Nat)) (size : Nat) : B (Option (List (List Nat))) := do
  let l ← searched T bound D D' nodes edges
  let (emb, _) ← l.foldlM (fun (p : List (List Nat) × Found) C => do
    let (b, F) ← findNice S fuel T C size p.2
    pure (if b then F.emb else p.1, F)) ([], ⟨[], none⟩)
  pure (if size ≤ emb.length then some emb else none)

/-- `find_clique_embedding` without a cache (busclique.pyx 887-898, 1000-1011, 1118-1129), for the labels that `_num_nodes` made; `relabel` is left out. -/
def findUncached {α : Type} (S : Sorting) (fuel : Nat) (T : Topo) (bound : Nat) (D D' : Draws) (nodes : List Nat) (edges : List (Nat × Nat)) (labels : List α) : B (List (α × List Nat)) :=
  let short := shortClique T.cliqueNumber nodes edges
  if labels.length ≤ short.length then pure (labels.zip short)
  else do
    let r ← findClique S fuel T bound D D' nodes edges labels.length
    match r with
    | none => pure []
    | some emb => pure (labels.zip emb)

end Bus
end MM
