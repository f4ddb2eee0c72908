import Verif.Pack.Grid

/-! Model of `rpack.pack` (minorminer/_extern/rpack/_core.pyx and `__init__.py`). -/

namespace MM
namespace Pack

/-- The sign that the compare functions return for two values narrowed to `int`, the larger one first. -/
def downCmp (a b : Int) : Int := if toInt a < toInt b then 1 else if toInt a = toInt b then 0 else -1

/-- `rectangle_area_cmp` (_core.pyx 73-82). -/
def areaCmp (a b : Rect) : Int := downCmp a.area b.area

/-- `rectangle_width_cmp` (_core.pyx 49-58). -/
def widthCmp (a b : Rect) : Int := if downCmp a.width b.width = 0 then areaCmp a b else downCmp a.width b.width

/-- `rectangle_height_cmp` (_core.pyx 61-70). -/
def heightCmp (a b : Rect) : Int := if downCmp a.height b.height = 0 then areaCmp a b else downCmp a.height b.height

/-- `rectangle_index_cmp` (_core.pyx 37-46). -/
def indexCmp (a b : Rect) : Int :=
  if toInt a.index < toInt b.index then -1 else if toInt a.index = toInt b.index then 0 else 1

/-- The C library's `qsort`, given the compare function. -/
abbrev Qsort := (Rect → Rect → Int) → List Rect → List Rect

/-- `RectangleSet` (_core.pyx 85-101); the smallest sizes and the total area are never read and left out. -/
structure RSet where
  rects : List Rect
  sumWidth : Int
  sumHeight : Int
  maxWidth : Int
  maxHeight : Int

/-- The loop of `RectangleSet.__cinit__` (_core.pyx 121-155), from the rectangle with index `i` on. The sizes are
integers; `NO_POSITION` is -1. -/
def RSet.fill : RSet → Nat → List (Int × Int) → Except Err RSet
  | s, _, [] => .ok s
  | s, i, (w, h) :: more =>
    if w ≤ 0 ∨ h ≤ 0 then .error .value
    else RSet.fill ⟨s.rects ++ [⟨w, h, -1, -1, i, w * h⟩], s.sumWidth + w, s.sumHeight + h,
      if s.maxWidth < w then w else s.maxWidth, if s.maxHeight < h then h else s.maxHeight⟩ (i + 1) more

/-- `RectangleSet(sizes)` (_core.pyx 103-158) for sizes that are not empty. -/
def RSet.make (sizes : List (Int × Int)) : Except Err RSet := RSet.fill ⟨[], 0, 0, 0, 0⟩ 0 sizes

/-- `rotate_all` (_core.pyx 196-206). -/
def RSet.rotate (s : RSet) : RSet :=
  ⟨s.rects.map fun r => { r with width := r.height, height := r.width }, s.sumHeight, s.sumWidth, s.maxHeight, s.maxWidth⟩

/-- `sort_by_width` (_core.pyx 211-212). -/
def RSet.byWidth (q : Qsort) (s : RSet) : RSet := { s with rects := q widthCmp s.rects }

/-- `sort_by_height` (_core.pyx 214-215). -/
def RSet.byHeight (q : Qsort) (s : RSet) : RSet := { s with rects := q heightCmp s.rects }

/-- `transpose` (_core.pyx 228-233). -/
def RSet.transpose (s : RSet) : RSet := { s with rects := s.rects.map fun r => { r with x := r.y, y := r.x } }

/-- Whether a rectangle has a position (_core.pyx 170-171). -/
def Rect.placed (r : Rect) : Bool := !(r.x == -1 || r.y == -1)

/-- `positions` (_core.pyx 167-179). -/
def RSet.positions (q : Qsort) (s : RSet) : Except Err (List (Int × Int)) :=
  let done := s.rects.takeWhile Rect.placed
  let out := (q indexCmp done).map fun r => (r.x, r.y)
  if done.length ≠ s.rects.length then .error (.impossible out) else .ok out

/-- `Grid.search_bbox` (_core.pyx 251-263). -/
def Grid.searchBox (debug : Bool) (g : Grid) (s : RSet) (b : Box) : Except Err (Grid × Int × Int) := do
  if g.size + 1 < s.rects.length then .error (.impossible [])
  else if ¬ b.minWidth = s.maxWidth then .error .assert
  else if ¬ b.minHeight = s.maxHeight then .error .assert
  else
    let (g, ok) ← g.search debug s.rects b
    if ok then .ok (g, g.width, g.height) else .ok (g, g.width, -g.height)

/-- The loop of `Grid.pack` (_core.pyx 275-285): the rectangles with positions; it ends at the first one that does not
fit. -/
def Grid.packAll : Grid → List Rect → Except Err (List Rect)
  | _, [] => .ok []
  | g, r :: rs => do
    let (g, _, reg) ← g.find r.width r.height
    match reg with
    | none => .ok ({ r with x := -1, y := -1 } :: rs)
    | some reg =>
      let r := { r with x := g.cols.startPos reg.colStart, y := g.rows.startPos reg.rowStart }
      let rs ← (← g.split reg).packAll rs
      .ok (r :: rs)

/-- `Grid.pack` (_core.pyx 265-285). -/
def Grid.pack (g : Grid) (s : RSet) (width height : Int) : Except Err RSet := do
  if g.size + 1 < s.rects.length then .error (.impossible [])
  else
    let rects ← ({ g with width := width, height := height } : Grid).clear.packAll s.rects
    .ok { s with rects := rects }

/-- `LONG_MAX` on a 64 bit platform. -/
def longMax : Int := 2 ^ 63 - 1

/-- Reads `max_width` or `max_height` (_core.pyx 322-334). -/
def limit (given total least : Int) : Except Err Int :=
  if given < 0 then .ok total
  else if given = 0 then .error (.impossible [])
  else if given < least then .error (.impossible [])
  else .ok given

/-- What the four searches of `pack` leave behind: the best box and the case that found it. -/
structure Choice where
  area : Int
  w : Int
  h : Int
  case : Nat

/-- The update after each search (_core.pyx 350-354, 358-362, 373-377, 381-385). -/
def Choice.update (c : Choice) (w h : Int) (case : Nat) : Choice :=
  if 0 < w * h ∧ w * h < c.area then ⟨w * h, w, h, case⟩ else c

/-- `pack` of _core.pyx (288-410). `debug` says whether the assertions of `grid_search_bbox` are compiled in. -/
def corePack (debug : Bool) (q : Qsort) (sizes : List (Int × Int)) (maxWidth maxHeight : Int) : Except Err (List (Int × Int)) := do
  if sizes = [] then .ok []
  else
    let s ← RSet.make sizes
    let mw ← limit maxWidth s.sumWidth s.maxWidth
    let mh ← limit maxHeight s.sumHeight s.maxHeight
    let g := Grid.alloc (s.rects.length + 1)
    let c : Choice := ⟨longMax, mw, mh, 0⟩
    let s := s.byHeight q
    let (g, w, h) ← g.searchBox debug s ⟨s.maxWidth, mw, s.maxHeight, mh, c.area⟩
    let c := c.update w h 1
    let s := s.byWidth q
    let (g, w, h) ← g.searchBox debug s ⟨s.maxWidth, mw, s.maxHeight, mh, c.area⟩
    let c := c.update w h 2
    let s := s.rotate
    let (g, w, h) ← g.searchBox debug s ⟨s.maxWidth, mh, s.maxHeight, mw, c.area⟩
    let c := c.update w h 3
    let s := s.byWidth q
    let (g, w, h) ← g.searchBox debug s ⟨s.maxWidth, mh, s.maxHeight, mw, c.area⟩
    let c := c.update w h 4
    let (c, s) :=
      if c.case = 0 then ({ c with w := mh, h := mw }, s)
      else if c.case = 1 then (c, s.rotate)
      else if c.case = 2 then (c, s.rotate.byWidth q)
      else if c.case = 3 then (c, s.byHeight q)
      else (c, s)
    let s ← g.pack s c.w c.h
    (if c.case = 0 ∨ c.case = 3 ∨ c.case = 4 then s.transpose else s).positions q

/-- `rpack.pack` (`__init__.py` 198-244) for integers or `None`; `max_width or -1` turns `None` and zero into -1. -/
def pack (debug : Bool) (q : Qsort) (sizes : List (Int × Int)) (maxWidth maxHeight : Option Int) : Except Err (List (Int × Int)) :=
  let read (m : Option Int) : Int := if m.elim 0 id = 0 then -1 else m.elim 0 id
  corePack debug q sizes (read maxWidth) (read maxHeight)

end Pack
end MM
