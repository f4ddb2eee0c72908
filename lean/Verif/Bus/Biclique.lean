import Verif.Bus.Bundle
import Verif.Bus.Next
import Verif.Bus.Yield

/-! Model of `biclique_cache` and `biclique_yield_cache` (include/busclique/biclique_cache.hpp) and `best_bicliques` (find_biclique.hpp). -/

namespace MM
namespace Bus

/-- `memrows(h)` (biclique_cache.hpp 49-51). -/
def memRows (T : Topo) (h : Nat) : Nat := T.dimY - h + 1

/-- `memcols(w)` (biclique_cache.hpp 52-54). -/
def memCols (T : Topo) (w : Nat) : Nat := T.dimX - w + 1

/-- `memsize(h, w)` (biclique_cache.hpp 56-58). -/
def memSize (T : Topo) (h w : Nat) : Nat := 2 * (memRows T h * memCols T w)

/-- `memsize()` (biclique_cache.hpp 60-66). -/
def scoreTotal (T : Topo) : Nat :=
  (List.range (T.dimY + 1)).foldl (fun s h => (List.range (T.dimX + 1)).foldl (fun s w => s + (memSize T h w + 1)) s) 0

/-- `mem_addr(h, w)` (biclique_cache.hpp 68-70), with `grid_index` (coordinate_types.hpp 451-460). -/
def memAddr (T : Topo) (h w : Nat) : Nat := (w - 1) + T.dimX * (h - 1)

/-- `make_access_table` (biclique_cache.hpp 73-80): for each height and width, the offset of its table. -/
def accessTable (T : Topo) (mem : List Nat) : B (Nat × List Nat) :=
  (List.range' 1 T.dimY).foldlM (init := (T.dimY * T.dimX, mem)) fun s h =>
    (List.range' 1 T.dimX).foldlM (init := s) fun s w => do
      let mem ← put s.2 (memAddr T h w) s.1
      pure (s.1 + memSize T h w, mem)

/-- `get(h, w)` (biclique_cache.hpp 83-89) followed by `yieldcache::get` (biclique_cache.hpp 27-33). -/
def yieldAt (T : Topo) (mem : List Nat) (h w y x : Nat) (u : Bool) : B Nat := do
  let base ← at_ mem (memAddr T h w)
  at_ mem (base + cellYX (memCols T w) y x u)

/-- `get(h, w)` followed by `yieldcache::set` (biclique_cache.hpp 27-36). -/
def yieldPut (T : Topo) (mem : List Nat) (h w y x : Nat) (u : Bool) (s : Nat) : B (List Nat) := do
  let base ← at_ mem (memAddr T h w)
  put mem (base + cellYX (memCols T w) y x u) s

/-- The rectangle of `n` lines of orientation `u` from line `w` on, from `z` on, `L` long: its height, width, first row, first column. -/
def rectOf (u : Bool) (L n z w : Nat) : Nat × Nat × Nat × Nat := if u then (n, L, w, z) else (L, n, z, w)

/-- The scores for single lines (biclique_cache.hpp 94-99, 116-122): both loops run over `y0`, then over `x0`. -/
def singleLines (T : Topo) (lines : List Byte) (u : Bool) (L : Nat) (mem : List Nat) : B (List Nat) :=
  let h := if u then 1 else L
  let w := if u then L else 1
  (List.range (T.dimY - h + 1)).foldlM (init := mem) fun mem y0 =>
    (List.range (T.dimX - w + 1)).foldlM (init := mem) fun mem x0 => do
      let s ← if u then lineScore T lines true y0 x0 (x0 + w - 1) else lineScore T lines false x0 y0 (y0 + h - 1)
      yieldPut T mem h w y0 x0 u s

/-- One window moves along the lines (biclique_cache.hpp 104-112, 127-135): the first has the score of one line less, plus that of the last line. -/
def slide (T : Topo) (lines : List Byte) (u : Bool) (L n z : Nat) (mem : List Nat) : B (List Nat) := do
  let (h', w', y', x') := rectOf u L (n - 1) z 0
  let s ← yieldAt T mem h' w' y' x' u
  let a ← lineScore T lines u (n - 1) z (z + L - 1)
  let (h, w, y, x) := rectOf u L n z 0
  let mem ← yieldPut T mem h w y x u (s + a)
  let r ← (List.range' 1 (sideW T u - n)).foldlM (init := (s + a, mem)) fun st w0 => do
    let a ← lineScore T lines u (w0 - 1) z (z + L - 1)
    let s ← sub_ st.1 a
    let b ← lineScore T lines u (w0 + n - 1) z (z + L - 1)
    let (h, w, y, x) := rectOf u L n z w0
    let mem ← yieldPut T st.2 h w y x u (s + b)
    pure (s + b, mem)
  pure r.2

/-- Half of `compute_cache` (biclique_cache.hpp 92-114 for vertical, 115-137 for horizontal lines). -/
def scoreSide (T : Topo) (lines : List Byte) (u : Bool) (mem : List Nat) : B (List Nat) :=
  (List.range' 1 (sideZ T u)).foldlM (init := mem) fun mem L => do
    let mem ← singleLines T lines u L mem
    (List.range' 2 (sideW T u - 1)).foldlM (init := mem) fun mem n =>
      (List.range (sideZ T u - L + 1)).foldlM (init := mem) fun mem z => slide T lines u L n z mem

/-- The constructor (biclique_cache.hpp 141-145). -/
def bicliqueScores (T : Topo) (lines : List Byte) : B (List Nat) := do
  let (_, mem) ← accessTable T (List.replicate (scoreTotal T) 0)
  let mem ← scoreSide T lines false mem
  scoreSide T lines true mem

/-- `score` (biclique_cache.hpp 150-159): the number of vertical and of horizontal lines of a rectangle. -/
def rectScore (T : Topo) (mem : List Nat) (y0 y1 x0 x1 : Nat) : B (Nat × Nat) := do
  let h := y1 - y0 + 1
  let w := x1 - x0 + 1
  let a ← yieldAt T mem h w y0 x0 false
  let b ← yieldAt T mem h w y0 x0 true
  pure (a, b)

/-- `line_length` of Zephyr (util.hpp 553-560); the asserts do nothing, and `z - (k & 1)` would wrap around for a negative difference. -/
def zephyrLength (z0 z1 k : Nat) : B Nat := do
  let a ← sub_ z1 (k % 2)
  let b ← sub_ z0 (k % 2)
  pure (a / 2 - b / 2 + 1)

/-- `biclique_length` (util.hpp 355-366, 435-437, 562-577). -/
def bicliqueLength (T : Topo) (y0 y1 x0 x1 : Nat) : B Nat :=
  match T with
  | .chimera _ _ _ => pure (max (y1 - y0) (x1 - x0) + 1)
  | .pegasus _ off =>
    let a := (List.range' x0 (min x1 (x0 + 5) + 1 - x0)).foldl (fun l x => max (pegasusLength off false x y0 y1) l) 0
    pure ((List.range' y0 (min y1 (y0 + 5) + 1 - y0)).foldl (fun l y => max (pegasusLength off true y x0 x1) l) a)
  | .zephyr _ _ => do
    let l ← if 0 < y0 then zephyrLength y0 y1 1 else pure 0
    let l ← if 0 < x0 then do
        let m ← zephyrLength x0 x1 1
        pure (max l m)
      else pure l
    let l ← if y1 + 1 < T.dimY then do
        let m ← zephyrLength y0 y1 0
        pure (max l m)
      else pure l
    if x1 + 1 < T.dimX then do
      let m ← zephyrLength x0 x1 0
      pure (max l m)
    else pure l

/-- A rectangle of rows `y0` to `y1` and columns `x0` to `x1`: `bound_t` (biclique_cache.hpp 165). -/
structure Rect where
  y0 : Nat
  y1 : Nat
  x0 : Nat
  x1 : Nat
  deriving DecidableEq, Repr

/-- One entry of the two tables `chainlength` and `biclique_bounds` (biclique_cache.hpp 176-177), which have the same shape; length 0 means that there is none. -/
abbrev Best := List (List (Nat × Rect))

/-- One round of `compute_cache` (biclique_cache.hpp 201-214). -/
def keepRect (T : Topo) (mem : List Nat) (tab : Best) (h w y x : Nat) : B Best := do
  let s0 ← yieldAt T mem h w y x false
  let s1 ← yieldAt T mem h w y x true
  if s0 = 0 ∨ s1 = 0 then pure tab
  else do
    let len ← bicliqueLength T y (y + h - 1) x (x + w - 1)
    let row ← at_ tab (s0 - 1)
    let old ← at_ row (s1 - 1)
    if old.1 = 0 ∨ len < old.1 then do
      let row ← put row (s1 - 1) (len, ⟨y, y + h - 1, x, x + w - 1⟩)
      put tab (s0 - 1) row
    else pure tab

/-- The rounds of the four loops (biclique_cache.hpp 196-200): height, width, row, column. -/
def rectOrder (T : Topo) : List (Nat × Nat × Nat × Nat) :=
  (List.range' 1 T.dimY).flatMap fun h => (List.range' 1 T.dimX).flatMap fun w =>
    (List.range (memRows T h)).flatMap fun y => (List.range (memCols T w)).map fun x => (h, w, y, x)

/-- The constructor of `biclique_yield_cache` (biclique_cache.hpp 183-196). -/
def bestRects (T : Topo) (mem : List Nat) : B Best :=
  (rectOrder T).foldlM (init := List.replicate (T.dimX * T.shore) (List.replicate (T.dimY * T.shore) (0, ⟨0, 0, 0, 0⟩))) fun tab r => keepRect T mem tab r.1 r.2.1 r.2.2.1 r.2.2.2

/-- The entries of the tables in the order of the iterator (biclique_cache.hpp 222-266): sides, length and rectangle. -/
def entries (tab : Best) : List ((Nat × Nat) × Nat × Rect) :=
  ((List.range tab.length).zip tab).flatMap fun r => ((List.range r.2.length).zip r.2).filterMap fun c =>
    if c.2.1 = 0 then none else some ((r.1 + 1, c.1 + 1), c.2)

/-- What the loop over `bcc` gets for one mask (find_biclique.hpp 52-58): sides, length and chains. -/
def bicliquesOf (T : Topo) (C : Masks) : B (List ((Nat × Nat) × Nat × List (List Nat))) := do
  let lines ← lineMasks T C
  let mem ← bicliqueScores T lines
  let tab ← bestRects T mem
  (entries tab).mapM fun e => do
    let emb ← inflateRect T lines e.2.2.y0 e.2.2.y1 e.2.2.x0 e.2.2.x1
    pure (e.1, e.2.1, emb)

/-- An `unordered_map` from sides: a list of items without repeated keys. -/
abbrev SideMap (β : Type) := List ((Nat × Nat) × β)

def sget {β : Type} (m : SideMap β) (k : Nat × Nat) : Option β := (m.find? fun p => p.1 = k).map Prod.snd

def sset {β : Type} (m : SideMap β) (k : Nat × Nat) (v : β) : SideMap β :=
  if (sget m k).isSome then m.map fun p => if p.1 = k then (k, v) else p else m ++ [(k, v)]

/-- The loop over the results of one mask (find_biclique.hpp 56-64). `chainlength` is never written to in the code, so that the comparison never sees an old length. -/
def mergeBicliques (chainlength : SideMap Nat) (embs : SideMap (List (List Nat))) (zs : List ((Nat × Nat) × Nat × List (List Nat))) : SideMap (List (List Nat)) :=
  zs.foldl (fun embs z =>
    match sget chainlength z.1 with
    | none => sset embs z.1 z.2.2
    | some cl => if cl > z.2.1 then sset embs z.1 z.2.2 else embs) embs

/-- `best_bicliques` (find_biclique.hpp 46-68). The order of the items of an `unordered_map` is left open there; here it is that of insertion. -/
def bestBicliques (T : Topo) (bound : Nat) (D D' : Draws) (nodes : List Nat) (edges : List (Nat × Nat)) : B (SideMap (List (List Nat))) := do
  let l ← searched T bound D D' nodes edges
  l.foldlM (init := []) fun embs C => do
    let zs ← bicliquesOf T C
    pure (mergeBicliques [] embs zs)

end Bus
end MM
