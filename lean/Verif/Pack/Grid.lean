import Mathlib.Data.List.Basic

/-! Model of the grid of the bundled rectangle packer (minorminer/_extern/rpack/src/rpackcore.c 1-522 and
include/rpackcore.h). `long` and `size_t` are unbounded integers, except where a value is narrowed to `int`. Allocation
does not fail. -/

namespace MM
namespace Pack

/-- How a call can end other than by returning: undefined behaviour (a null or dangling pointer, an index outside an
array, an uninitialised value, a division by zero in C), a failed assertion, a loop that runs too often, or an error raised
to the caller: a bad argument, an index outside a list, a division by zero in Python, or that packing is impossible, with
the positions found so far. -/
inductive Err where
  | ub
  | assert
  | hang
  | value
  | index
  | zeroDivision
  | impossible (partly : List (Int × Int))
deriving DecidableEq, Repr

/-- `struct cell` (rpackcore.h 7-14). `index` is `jump_index`, the place of the cell in the array `cells`; it stands for
the pointer to the cell. -/
structure Cell where
  endPos : Int
  index : Nat
deriving DecidableEq, Repr

/-- `struct cell_link` (rpackcore.h 19-26). `cells` lists the cells in the order of the doubly linked list, starting from
`head`, in place of `prev` and `next`; `used` is `jump_index`. -/
structure Link where
  size : Nat
  used : Nat
  cells : List Cell
deriving DecidableEq, Repr

/-- An entry of the jump matrix (rpackcore.c 132-138): NULL, `COL_FULL`, or a pointer to a row cell. -/
inductive Jump where
  | free
  | full
  | row (i : Nat)
deriving DecidableEq, Repr

/-- `struct grid` (rpackcore.h 66-76). In `jump`, `none` is memory that was never written. -/
structure Grid where
  size : Nat
  width : Int
  height : Int
  cols : Link
  rows : Link
  jump : Nat → Nat → Option Jump

/-- `struct region` (rpackcore.h 32-40). -/
structure Region where
  rowStart : Nat
  row : Nat
  rowEnd : Int
  colStart : Nat
  col : Nat
  colEnd : Int
deriving DecidableEq, Repr

/-- `struct rectangle` (rpackcore.h 43-53); `wide` and `rotated` are never read and left out. -/
structure Rect where
  width : Int
  height : Int
  x : Int
  y : Int
  index : Nat
  area : Int
deriving DecidableEq, Repr

/-- `struct bbox_restrictions` (rpackcore.h 56-63). -/
structure Box where
  minWidth : Int
  maxWidth : Int
  minHeight : Int
  maxHeight : Int
  maxArea : Int
deriving DecidableEq, Repr

/-- `clear_cell_link` (rpackcore.c 52-62). -/
def Link.clear (l : Link) (e : Int) : Link := ⟨l.size, 1, [⟨e, 0⟩]⟩

/-- The linked list from the cell with index `i` on. -/
def cellsFrom : List Cell → Nat → List Cell
  | [], _ => []
  | c :: cs, i => if c.index = i then c :: cs else cellsFrom cs i

/-- `start_pos` (rpackcore.c 26-35) of the cell with index `i`, given the end of the cell before the list. -/
def startFrom (p : Int) : List Cell → Nat → Int
  | [], _ => p
  | c :: cs, i => if c.index = i then p else startFrom c.endPos cs i

/-- `start_pos` (rpackcore.c 26-35): zero for the first cell. -/
def Link.startPos (l : Link) (i : Nat) : Int := startFrom 0 l.cells i

/-- `cell->prev->end_pos` for the cell with index `i`; `none` if `prev` is NULL or there is no such cell. -/
def prevEnd : List Cell → Nat → Option Int
  | c :: d :: cs, i => if d.index = i then some c.endPos else prevEnd (d :: cs) i
  | _, _ => none

/-- The relinking done by `cut` (rpackcore.c 112-124): the victim ends at `e` and the cell `new` takes the rest. -/
def cutCells (v : Nat) (e : Int) (new : Nat) : List Cell → List Cell
  | [] => []
  | c :: cs => if c.index = v then ⟨e, v⟩ :: ⟨c.endPos, new⟩ :: cs else c :: cutCells v e new cs

/-- `cut` (rpackcore.c 108-128); the index of the new cell is `used` before the call. -/
def Link.cut (l : Link) (v : Nat) (e : Int) : Except Err Link :=
  if l.used < l.size then .ok ⟨l.size, l.used + 1, cutCells v e l.used l.cells⟩ else .error .ub

/-- Reads an entry of the jump matrix, which has `size` rows and columns (rpackcore.c 141-164). -/
def Grid.read (g : Grid) (i j : Nat) : Except Err Jump :=
  if i < g.size ∧ j < g.size then
    match g.jump i j with
    | some t => .ok t
    | none => .error .ub
  else .error .ub

/-- Writes an entry of the jump matrix. -/
def Grid.write (g : Grid) (i j : Nat) (t : Jump) : Grid :=
  { g with jump := fun a b => if a = i ∧ b = j then some t else g.jump a b }

/-- `copy_row` (rpackcore.c 168-176). -/
def Grid.copyRow (g : Grid) (src dest n : Nat) : Grid :=
  { g with jump := fun a b => if a = dest ∧ b < n then g.jump src b else g.jump a b }

/-- `copy_col` (rpackcore.c 180-188). -/
def Grid.copyCol (g : Grid) (src dest n : Nat) : Grid :=
  { g with jump := fun a b => if b = dest ∧ a < n then g.jump a src else g.jump a b }

/-- `grid_alloc(size, 0, 0)` (rpackcore.c 198-229, 81-103, 141-164) for a positive `size`. -/
def Grid.alloc (size : Nat) : Grid where
  size := size
  width := 0
  height := 0
  cols := ⟨size, 1, [⟨1, 0⟩]⟩
  rows := ⟨size, 1, [⟨1, 0⟩]⟩
  jump := fun a b => if a = 0 ∧ b = 0 then some .free else none

/-- `grid_clear` (rpackcore.c 250-260); entries of the jump matrix other than the first one stay. -/
def Grid.clear (g : Grid) : Grid :=
  { g with
    cols := g.cols.clear g.width
    rows := g.rows.clear g.height
    jump := fun a b => if a = 0 ∧ b = 0 then some .free else g.jump a b }

/-- The end of the cell with index `i`; reading through a pointer to no cell is undefined. -/
def Link.endOf (l : Link) (i : Nat) : Except Err Int :=
  match cellsFrom l.cells i with
  | c :: _ => .ok c.endPos
  | [] => .error .ub

/-- The cut of a row in `grid_split` (rpackcore.c 273-276). -/
def Grid.cutRow (g : Grid) (v : Nat) (e : Int) : Except Err Grid := do
  if e < (← g.rows.endOf v) then
    let rows ← g.rows.cut v e
    .ok ({ g with rows := rows }.copyRow v g.rows.used g.cols.used)
  else .ok g

/-- The cut of a column in `grid_split` (rpackcore.c 278-281). -/
def Grid.cutCol (g : Grid) (v : Nat) (e : Int) : Except Err Grid := do
  if e < (← g.cols.endOf v) then
    let cols ← g.cols.cut v e
    .ok ({ g with cols := cols }.copyCol v g.cols.used g.rows.used)
  else .ok g

/-- The loop over rows in `grid_split` (rpackcore.c 291-301), from the given cells on. -/
def Grid.markRows (g : Grid) (col last : Nat) (t : Jump) : List Cell → Except Err Grid
  | [] => .ok g
  | r :: rs => do
    if (← g.read r.index col) ≠ .free then .error .assert
    else if r.index = last then .ok (g.write r.index col t)
    else (g.write r.index col t).markRows col last t rs

/-- The loop over columns in `grid_split` (rpackcore.c 307-316), from the given cells on. -/
def Grid.markCols (g : Grid) (row last : Nat) (t : Jump) : List Cell → Except Err Grid
  | [] => .ok g
  | c :: cs => do
    if (← g.read row c.index) ≠ .free then .error .assert
    else if c.index = last then .ok (g.write row c.index t)
    else (g.write row c.index t).markCols row last t cs

/-- The jump target in `grid_split` (rpackcore.c 283-289). -/
def Grid.target (g : Grid) (row : Nat) : Except Err Jump :=
  match cellsFrom g.rows.cells row with
  | [] => .error .ub
  | [r] => if r.endPos = g.height then .ok .full else .error .assert
  | _ :: n :: _ => .ok (.row n.index)

/-- `grid_split` (rpackcore.c 264-318). -/
def Grid.split (g : Grid) (reg : Region) : Except Err Grid := do
  if ¬ reg.rowEnd ≤ (← g.rows.endOf reg.row) then .error .assert
  else if ¬ reg.colEnd ≤ (← g.cols.endOf reg.col) then .error .assert
  else
    let g ← g.cutRow reg.row reg.rowEnd
    let g ← g.cutCol reg.col reg.colEnd
    let t ← g.target reg.row
    let g ← g.markRows reg.colStart reg.row t (cellsFrom g.rows.cells reg.rowStart)
    if reg.colStart = reg.col then .ok g
    else g.markCols reg.rowStart reg.col t (cellsFrom g.cols.cells reg.colStart).tail

/-- The search along a row in `grid_find_region` (rpackcore.c 397-418), from the given columns on. -/
def Grid.scanCols (g : Grid) (row : Nat) (colEnd : Int) : List Cell → Except Err (Option Nat)
  | [] => .ok none
  | c :: cs => do
    if (← g.read row c.index) ≠ .free then .ok none
    else if colEnd ≤ c.endPos then .ok (some c.index)
    else g.scanCols row colEnd cs

/-- The longer jump recorded in `grid_find_region` (rpackcore.c 356-364). -/
def Grid.lengthen (g : Grid) (first : Option Nat) (col : Nat) (t : Jump) : Grid :=
  match first with
  | none => g
  | some f => g.write f col t

/-- The loop over rows in `grid_find_region` (rpackcore.c 345-423) for the column with index `col`, where `cols` are the
columns from there on. `start` and `row` are the lists from `row_cell_start` and `row_cell` on, and `fuel` bounds the
number of rounds. Returns the grid, `delta`, and the region found. -/
def Grid.scanRows (h colEnd : Int) (col : Nat) (cols : List Cell) :
    Nat → Grid → Int → List Cell → List Cell → Int → Option Nat → Except Err (Grid × Int × Option Region)
  | 0, _, _, _, _, _, _ => .error .hang
  | _ + 1, g, delta, [], _, _, _ => .ok (g, delta, none)
  | _ + 1, _, _, _ :: _, [], _, _ => .error .ub
  | fuel + 1, g, delta, s :: ss, r :: rs, rowEnd, first => do
    match ← g.read r.index col with
    | .full => .ok (g.lengthen first col .full, delta, none)
    | .row t =>
      match prevEnd g.rows.cells t with
      | none => .error .ub
      | some e =>
        let from_ := cellsFrom g.rows.cells t
        scanRows h colEnd col cols fuel (g.lengthen first col (.row t)) delta from_ from_ (e + h)
          (first.or (some r.index))
    | .free =>
      if r.endPos < rowEnd then
        match rs with
        | [] => .ok (g, min delta (rowEnd - g.height), none)
        | r' :: rs' => scanRows h colEnd col cols fuel g delta (s :: ss) (r' :: rs') rowEnd none
      else
        match ← g.scanCols s.index colEnd cols with
        | some c => .ok (g, delta, some ⟨s.index, r.index, rowEnd, col, c, colEnd⟩)
        | none => .ok (g, delta, none)

/-- The loop over columns in `grid_find_region` (rpackcore.c 339-431), from the given columns on. -/
def Grid.findFrom (w h : Int) : Grid → Int → Int → List Cell → Except Err (Grid × Int × Option Region)
  | g, delta, _, [] => .ok (g, delta, none)
  | g, delta, colEnd, c :: cs => do
    let (g, delta, reg) ← Grid.scanRows h colEnd c.index (c :: cs) (g.rows.cells.length + 1) g delta g.rows.cells
      g.rows.cells h none
    match reg with
    | some reg => .ok (g, delta, some reg)
    | none => if c.endPos + w > g.width then .ok (g, delta, none) else findFrom w h g delta (c.endPos + w) cs

/-- `grid_find_region` (rpackcore.c 322-435). The second result is `delta`, not yet narrowed to `int`; no region stands
for `reg->col_cell == NULL`. -/
def Grid.find (g : Grid) (w h : Int) : Except Err (Grid × Int × Option Region) := g.findFrom w h h w g.cols.cells

/-- Conversion of a `long` to `int`. -/
def toInt (a : Int) : Int := Int.bmod a (2 ^ 32)

/-- The loop over rectangles in `grid_search_bbox` (rpackcore.c 467-484): the grid, `delta`, `grid_w`, and whether the
last rectangle got a place. -/
def Grid.placeAll : Grid → Int → Int → List Rect → Except Err (Grid × Int × Int × Bool)
  | g, delta, gw, [] => .ok (g, delta, gw, true)
  | g, delta, gw, r :: rs => do
    let (g, d, reg) ← g.find r.width r.height
    let delta := if toInt d < delta then toInt d else delta
    match reg with
    | none => .ok (g, delta, gw, false)
    | some reg =>
      let gw := if gw < reg.colEnd then reg.colEnd else gw
      if ¬ gw ≤ g.width then .error .assert
      else (← g.split reg).placeAll delta gw rs

/-- The search state of `grid_search_bbox`. -/
structure Best where
  area : Int
  w : Int
  h : Int
deriving DecidableEq, Repr

/-- The main loop of `grid_search_bbox` (rpackcore.c 460-507); `fuel` bounds the number of rounds. The assertions of this
loop are checked if `debug`, that is, without `NDEBUG`; all others are always checked. -/
def Grid.searchLoop (debug : Bool) (rs : List Rect) (b : Box) : Nat → Grid → Best → Except Err (Grid × Best)
  | 0, _, _ => .error .hang
  | fuel + 1, g, best => do
    if g.height ≤ b.maxHeight ∧ b.minWidth ≤ g.width then
      let (g, delta, gw, all) ← g.clear.placeAll b.maxHeight 0 rs
      let (best, happy) ←
        if all then
          if debug ∧ ¬ (g.height * gw < best.area ∧ g.height * gw ≤ b.maxArea) then .error .assert
          else .ok (⟨g.height * gw, gw, g.height⟩, decide (g.height * gw ≤ 1))
        else .ok (best, false)
      if happy then .ok (g, best)
      else
        let height := g.height + delta
        if height = 0 then .error .ub
        else
          let width := min (best.area.tdiv height) b.maxWidth
          let width := if width * height = best.area then width - 1 else width
          if debug ∧ ¬ width * height < best.area then .error .assert
          else searchLoop debug rs b fuel { g with width := width, height := height } best
    else .ok (g, best)

/-- `grid_search_bbox` (rpackcore.c 440-522). The last result says whether a packing was found; the width and the height
are left in the grid. The loop reads `size - 1` rectangles. -/
def Grid.search (debug : Bool) (g : Grid) (rs : List Rect) (b : Box) : Except Err (Grid × Bool) := do
  if b.minHeight = 0 ∨ g.size ≤ 1 ∨ rs.length < g.size - 1 then .error .ub
  else
    let width := min (b.maxArea.tdiv b.minHeight) b.maxWidth
    let (g', best) ← searchLoop debug (rs.take (g.size - 1)) b ((b.maxHeight - b.minHeight).toNat + 2)
      { g with width := width, height := b.minHeight } ⟨b.maxArea - 1, width, b.minHeight⟩
    if best.area = b.maxArea - 1 then .ok ({ g' with width := width, height := b.minHeight }, false)
    else .ok ({ g' with width := best.w, height := best.h }, true)

end Pack
end MM
