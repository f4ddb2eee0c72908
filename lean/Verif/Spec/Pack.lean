/-! Specification of rectangle packings. -/

namespace MM
namespace Spec.Pack

/-- A rectangle of the given width and height whose corner nearest to the origin is at `x`, `y`. -/
structure Placed where
  x : Int
  y : Int
  w : Int
  h : Int
deriving DecidableEq

/-- Two rectangles share no area. -/
def Apart (a b : Placed) : Prop := a.x + a.w ≤ b.x ∨ b.x + b.w ≤ a.x ∨ a.y + a.h ≤ b.y ∨ b.y + b.h ≤ a.y

instance (a b : Placed) : Decidable (Apart a b) := by unfold Apart; infer_instance

/-- The unit square at `x`, `y` belongs to the rectangle. -/
def Covers (r : Placed) (x y : Int) : Prop := r.x ≤ x ∧ x < r.x + r.w ∧ r.y ≤ y ∧ y < r.y + r.h

/-- Two rectangles have a unit square in common. -/
def Overlap (a b : Placed) : Prop := ∃ x y, Covers a x y ∧ Covers b x y

/-- The rectangles of the given sizes at the given positions. -/
def place (sizes pos : List (Int × Int)) : List Placed := List.zipWith (fun s p => ⟨p.1, p.2, s.1, s.2⟩) sizes pos

/-- The positions are a packing of rectangles of the given sizes: each rectangle has a position, none reaches below zero,
and no two overlap. -/
structure Packing (sizes pos : List (Int × Int)) : Prop where
  all : pos.length = sizes.length
  corner : ∀ r ∈ place sizes pos, 0 ≤ r.x ∧ 0 ≤ r.y
  apart : (place sizes pos).Pairwise Apart

/-- A compare function is consistent, as the C standard asks of an argument of `qsort`: it orders the elements, where
those that compare equal are tied. -/
def Consistent {α : Type} (cmp : α → α → Int) : Prop :=
  (∀ a b, cmp a b < 0 ↔ 0 < cmp b a) ∧ ∀ a b c, cmp a b ≤ 0 → cmp b c ≤ 0 → cmp a c ≤ 0

/-- What the C standard says about `qsort`: with a consistent compare function it sorts; the order of ties is open. -/
def Sorts {α : Type} (q : (α → α → Int) → List α → List α) : Prop :=
  ∀ cmp, Consistent cmp → ∀ l, (q cmp l).Perm l ∧ (q cmp l).Pairwise fun a b => cmp a b ≤ 0

end Spec.Pack
end MM
