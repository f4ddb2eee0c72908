import Verif.Pack.Pack

/-! Model of the functions that evaluate packings (minorminer/_extern/rpack/_core.pyx 413-527). `long` is unbounded. -/

namespace MM
namespace Pack

/-- `sizes[i]` and `positions[i]` (_core.pyx 440-441, 516-517, 521-522): width, height, x, y. -/
def entry (sizes pos : List (Int × Int)) (i : Nat) : Except Err ((Int × Int) × Int × Int) :=
  match sizes[i]?, pos[i]? with
  | some s, some p => .ok (s, p)
  | _, _ => .error .index

/-- The loop of `bbox_size` (_core.pyx 439-445) over the given indices. -/
def bboxFrom (sizes pos : List (Int × Int)) : List Nat → Int → Int → Except Err (Int × Int)
  | [], mw, mh => .ok (mw, mh)
  | i :: is, mw, mh => do
    let ((w, h), x, y) ← entry sizes pos i
    bboxFrom sizes pos is (if w + x > mw then w + x else mw) (if h + y > mh then h + y else mh)

/-- `bbox_size` (_core.pyx 413-446). -/
def bboxSize (sizes pos : List (Int × Int)) : Except Err (Int × Int) := bboxFrom sizes pos (List.range sizes.length) 0 0

/-- `packing_density` (_core.pyx 449-479), as the exact fraction: its numerator and denominator. -/
def density (sizes pos : List (Int × Int)) : Except Err (Int × Int) := do
  let (w, h) ← bboxSize sizes pos
  let rects := (sizes.map fun s => s.1 * s.2).sum
  if w * h = 0 then .error .zeroDivision else .ok (rects, w * h)

/-- The inner loop of `overlapping` (_core.pyx 518-526): the first of the indices whose rectangle overlaps rectangle `i`. -/
def overlapWith (sizes pos : List (Int × Int)) (i : Nat) (a : (Int × Int) × Int × Int) : List Nat → Except Err (Option Nat)
  | [] => .ok none
  | j :: js =>
    if j = i then overlapWith sizes pos i a js
    else do
      let ((w2, h2), x2, y2) ← entry sizes pos j
      let ((w1, h1), x1, y1) := a
      let inX := decide (x1 + w1 ≤ x2 ∨ x2 + w2 ≤ x1)
      let inY := decide (y1 + h1 ≤ y2 ∨ y2 + h2 ≤ y1)
      if ¬ (inX || inY) then .ok (some j) else overlapWith sizes pos i a js

/-- The outer loop of `overlapping` (_core.pyx 515-526). -/
def overlapFrom (sizes pos : List (Int × Int)) : List Nat → Except Err (Option (Nat × Nat))
  | [] => .ok none
  | i :: is => do
    let a ← entry sizes pos i
    match ← overlapWith sizes pos i a (List.range sizes.length) with
    | some j => .ok (some (i, j))
    | none => overlapFrom sizes pos is

/-- `overlapping` (_core.pyx 482-527). -/
def overlapping (sizes pos : List (Int × Int)) : Except Err (Option (Nat × Nat)) :=
  overlapFrom sizes pos (List.range sizes.length)

end Pack
end MM
