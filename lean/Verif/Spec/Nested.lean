import Verif.Bus.Bundle

/-! The family of ells in which the clique search looks for the best: those of nested rectangles. -/

namespace MM
namespace Spec

open Bus

/-- A sequence of rectangles in a grid of `Y` rows and `X` columns. The first has one row and `W` columns; each next one has one row more,
above or below, and one column less, the leftmost or the rightmost. Rectangle `i` has rows `ys i` to `ys i + i` and
columns `xs i` to `xs i + (W - 1 - i)`. -/
structure Nested (Y X W : Nat) (ys xs : Nat → Nat) : Prop where
  rows : ∀ i, i < W → ys i + i < Y
  cols : ∀ i, i < W → xs i + (W - 1 - i) < X
  row : ∀ i, i + 1 < W → ys (i + 1) = ys i ∨ ys (i + 1) + 1 = ys i
  col : ∀ i, i + 1 < W → xs (i + 1) = xs i ∨ xs (i + 1) = xs i + 1

/-- The row that rectangle `i` has and the one before has not. -/
def newRow (ys : Nat → Nat) : Nat → Nat
  | 0 => ys 0
  | i + 1 => if ys (i + 1) = ys i then ys (i + 1) + (i + 1) else ys (i + 1)

/-- The column that rectangle `i` has and the next one has not; the only column of the last one. -/
def oldColumn (W : Nat) (xs : Nat → Nat) (i : Nat) : Nat :=
  if i + 1 = W then xs i else if xs (i + 1) = xs i then xs i + (W - 1 - i) else xs i

/-- The ell of rectangle `i`: all of the new row and all of the old column. -/
def nestedEll (W : Nat) (ys xs : Nat → Nat) (i : Nat) : Ell :=
  { yc := newRow ys i, xc := oldColumn W xs i, y0 := ys i, y1 := ys i + i, x0 := xs i, x1 := xs i + (W - 1 - i) }

/-- The ells of the first `n` rectangles, the last one first. -/
def nestedElls (W : Nat) (ys xs : Nat → Nat) (n : Nat) : List Ell := (List.range n).reverse.map (nestedEll W ys xs)

end Spec
end MM
