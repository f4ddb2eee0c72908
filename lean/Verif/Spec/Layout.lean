import Mathlib.Data.Rat.Defs
import Mathlib.Algebra.Order.Ring.Unbundled.Rat
import Mathlib.Algebra.Order.Group.Unbundled.Abs
import Mathlib.Data.List.Forall2

/-! Specification of centre and scale of a cloud of points. -/

namespace MM
namespace Spec.Layout

/-- `c` is the middle of the smallest box that contains all points: in each coordinate half way between the least and the largest value. -/
def IsCentre (pts : List (List Rat)) (c : List Rat) : Prop :=
  (∀ p ∈ pts, p.length = c.length) ∧
    ∀ (i : Nat) (y : Rat), c[i]? = some y → ∃ lo hi : Rat, lo + hi = 2 * y ∧ (∃ p ∈ pts, p[i]? = some lo) ∧ (∃ p ∈ pts, p[i]? = some hi) ∧
      ∀ p ∈ pts, ∀ x : Rat, p[i]? = some x → lo ≤ x ∧ x ≤ hi

/-- `s` is the largest distance of a coordinate from that of `c`. -/
def IsScale (pts : List (List Rat)) (c : List Rat) (s : Rat) : Prop :=
  (∀ p ∈ pts, ∀ (i : Nat) (x y : Rat), p[i]? = some x → c[i]? = some y → |x - y| ≤ s) ∧
    ∃ p ∈ pts, ∃ (i : Nat) (x y : Rat), p[i]? = some x ∧ c[i]? = some y ∧ |x - y| = s

/-- The point `q` is `p` padded by zeros to `d` coordinates. -/
def Padded (d : Nat) (p q : List Rat) : Prop := q.length = d ∧ ∀ i < d, q[i]? = some ((p[i]?).getD 0)

/-- `q` is the image of `p` under the map that moves `c` to `c'` and stretches by `k`. -/
def Moved (c c' : List Rat) (k : Rat) (p q : List Rat) : Prop :=
  q.length = p.length ∧ ∀ (i : Nat) (x y z : Rat), p[i]? = some x → c[i]? = some y → c'[i]? = some z → q[i]? = some (k * (x - y) + z)

/-- Coordinate `i` of the points fills the interval: it is never outside and reaches both ends. -/
def Fills (pts : List (List Rat)) (i : Nat) (lo hi : Rat) : Prop :=
  (∀ p ∈ pts, ∃ x, p[i]? = some x ∧ lo ≤ x ∧ x ≤ hi) ∧ (∃ p ∈ pts, p[i]? = some lo) ∧ ∃ p ∈ pts, p[i]? = some hi

/-- Sum over all pairs of nodes of the square of their distance `d` minus the norm of the difference of their points. -/
def stress {V : Type} (norm : List Rat → Rat) (nodes : List V) (d : V → V → Rat) (pos : V → List Rat) : Rat :=
  (nodes.map fun u => (nodes.map fun v => (d u v - norm (List.zipWith (fun x y => x - y) (pos u) (pos v))) ^ 2).sum).sum

/-- `c` is the mean of the points. -/
def IsMean (pts : List (List Rat)) (c : List Rat) : Prop :=
  pts ≠ [] ∧ (∀ p ∈ pts, p.length = c.length) ∧
    ∀ (i : Nat) (y : Rat), c[i]? = some y → ∃ xs : List Rat, List.Forall₂ (fun p x => p[i]? = some x) pts xs ∧ y * pts.length = xs.sum

/-- Square of the Euclidean distance. -/
def sqDist (p q : List Rat) : Rat := (List.zipWith (fun x y => (x - y) * (x - y)) p q).sum

/-- Answer of a query for the `k` points nearest to `p`: pairs of a distance and the index of a point. No other point is nearer. -/
structure Neighbours (dist : List Rat → List Rat → Rat) (pts : List (List Rat)) (p : List Rat) (k : Nat) (res : List (Rat × Nat)) : Prop where
  number : res.length = k
  distinct : (res.map Prod.snd).Nodup
  points : ∀ r ∈ res, ∃ q, pts[r.2]? = some q ∧ r.1 = dist p q
  nearest : ∀ r ∈ res, ∀ q, pts[r.2]? = some q → ∀ (j : Nat) (q' : List Rat), pts[j]? = some q' → j ∉ res.map Prod.snd → sqDist p q ≤ sqDist p q'

/-- Overlap of a set with earlier sets: a power of `base` for every element, with the number of earlier sets that contain it as exponent. -/
def overlapCost {α : Type} [DecidableEq α] (base : Nat) (earlier : List (List α)) (X : List α) : Nat :=
  (X.map fun v => base ^ earlier.countP fun Y => decide (v ∈ Y)).sum

/-- The choice for a point `p` after the sets `earlier`, from a table of sets with their points: a set that belongs to one of the `num`
points nearest to `p` and has the least distance plus overlap among the sets found for them. The base of the overlap is 10, or less if that gives
a number from `big` on. -/
def Chosen {α : Type} [DecidableEq α] (dist : List Rat → List Rat → Rat) (big : Nat) (sets : List (List α × List Rat)) (num : Nat) (p : List Rat)
    (earlier : List (List α)) (X : List α) : Prop :=
  ∃ near base, Neighbours dist (sets.map Prod.snd) p num near ∧ 1 ≤ base ∧ base ≤ 10 ∧
    (∀ b, base < b → b ≤ 10 → ∃ e ∈ sets, big ≤ overlapCost b earlier e.1) ∧
    ∃ r ∈ near, ∃ q, (sets.map Prod.snd)[r.2]? = some q ∧ (X, q) ∈ sets ∧
      ∀ r' ∈ near, ∃ Y q', (sets.map Prod.snd)[r'.2]? = some q' ∧ (Y, q') ∈ sets ∧
        dist p q + overlapCost base earlier X ≤ dist p q' + overlapCost base earlier Y

end Spec.Layout
end MM
