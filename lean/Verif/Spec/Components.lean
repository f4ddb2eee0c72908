import Mathlib.Data.Rat.Defs
import Mathlib.Data.List.Forall2
import Verif.Spec.Pack

/-! Specification of layouts that keep components apart. -/

namespace MM
namespace Spec.Layout

/-- The point lies in the rectangle, or on its edge. -/
def Holds (r : Spec.Pack.Placed) (p : List Rat) : Prop :=
  ∃ x y : Rat, p = [x, y] ∧ (r.x : Rat) ≤ x ∧ x ≤ (r.x + r.w : Int) ∧ (r.y : Rat) ≤ y ∧ y ≤ (r.y + r.h : Int)

/-- Every component has a rectangle which holds the points of its nodes; the rectangles share no area. -/
def LaidApart {V : Type} [DecidableEq V] (comps : List (List V)) (pos : List (V × List Rat)) : Prop :=
  ∃ rects : List Spec.Pack.Placed, rects.Pairwise Spec.Pack.Apart ∧
    List.Forall₂ (fun c r => 0 ≤ r.x ∧ 0 ≤ r.y ∧ ∀ v ∈ c, ∃ p, pos.lookup v = some p ∧ Holds r p) comps rects

end Spec.Layout
end MM
