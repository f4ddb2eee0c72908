import Mathlib.Data.List.Nodup

/-! Native embeddings of complete and complete bipartite graphs in Chimera graphs with missing qubits and couplers, in the coordinates of `polynomialembedder.py`:
qubits `(x, y, 0, k)` are horizontal, coupled along `x`; qubits `(x, y, 1, k)` are vertical, coupled along `y`. -/

namespace MM
namespace Spec
namespace Eden

/-- A qubit. -/
structure Qb where
  x : Int
  y : Int
  u : Int
  k : Int
deriving DecidableEq, Repr

variable {α : Type}

/-- There is a coupler, in either direction. -/
def Joined (E : List (α × α)) (p q : α) : Prop := (p, q) ∈ E ∨ (q, p) ∈ E

/-- The qubit has a coupler. -/
def Works (E : List (α × α)) (q : α) : Prop := ∃ p, Joined E p q

/-- Different working qubits in a row, each coupled to the next. -/
structure Path (E : List (α × α)) (c : List α) : Prop where
  nonempty : c ≠ []
  nodup : c.Nodup
  works : ∀ q ∈ c, Works E q
  joined : c.IsChain (Joined E)

/-- A coupler between two chains. -/
def Touch (E : List (α × α)) (c d : List α) : Prop := ∃ p ∈ c, ∃ q ∈ d, Joined E p q

/-- Paths without common qubits, any two with a coupler between them. -/
structure Clique (E : List (α × α)) (chains : List (List α)) : Prop where
  paths : ∀ c ∈ chains, Path E c
  disjoint : chains.Pairwise fun c d => ∀ q ∈ c, q ∉ d
  touch : chains.Pairwise (Touch E)

/-- Paths without common qubits, with couplers between any two of different sides. -/
structure Biclique (E : List (α × α)) (A B : List (List α)) : Prop where
  paths : ∀ c ∈ A ++ B, Path E c
  disjoint : (A ++ B).Pairwise fun c d => ∀ q ∈ c, q ∉ d
  touch : ∀ c ∈ A, ∀ d ∈ B, Touch E c d

/-- Working qubits on the two sides of a cell are coupled. -/
def CellsWhole (E : List (Qb × Qb)) : Prop :=
  ∀ x y k l, Works E ⟨x, y, 0, k⟩ → Works E ⟨x, y, 1, l⟩ → Joined E ⟨x, y, 0, k⟩ ⟨x, y, 1, l⟩

/-- Working qubits that continue each other in neighbouring cells are coupled. -/
def LinesWhole (E : List (Qb × Qb)) : Prop :=
  (∀ x y k, Works E ⟨x, y, 0, k⟩ → Works E ⟨x + 1, y, 0, k⟩ → Joined E ⟨x, y, 0, k⟩ ⟨x + 1, y, 0, k⟩) ∧
  ∀ x y k, Works E ⟨x, y, 1, k⟩ → Works E ⟨x, y + 1, 1, k⟩ → Joined E ⟨x, y, 1, k⟩ ⟨x, y + 1, 1, k⟩

/-- The horizontal qubits `k` of row `y` work and are coupled from column `a` to column `b`. -/
def HLine (E : List (Qb × Qb)) (y a b k : Int) : Prop :=
  (∀ x, a ≤ x → x ≤ b → Works E ⟨x, y, 0, k⟩) ∧ ∀ x, a ≤ x → x < b → Joined E ⟨x, y, 0, k⟩ ⟨x + 1, y, 0, k⟩

/-- The vertical qubits `k` of column `x` work and are coupled from row `a` to row `b`. -/
def VLine (E : List (Qb × Qb)) (x a b k : Int) : Prop :=
  (∀ y, a ≤ y → y ≤ b → Works E ⟨x, y, 1, k⟩) ∧ ∀ y, a ≤ y → y < b → Joined E ⟨x, y, 1, k⟩ ⟨x, y + 1, 1, k⟩

open Classical in
/-- How many of the `L` lines are unbroken. -/
noncomputable def hLines (E : List (Qb × Qb)) (L : Nat) (y a b : Int) : Nat := (List.range L).countP fun (k : Nat) => decide (HLine E y a b k)

open Classical in
/-- How many of the `L` lines are unbroken. -/
noncomputable def vLines (E : List (Qb × Qb)) (L : Nat) (x a b : Int) : Nat := (List.range L).countP fun (k : Nat) => decide (VLine E x a b k)

/-- A block of chains that have the shape of an L: the horizontal arm from the corner `(x, y)` to `(x', y)`, the vertical one to `(x, y')`. -/
structure Ell where
  x : Int
  x' : Int
  y : Int
  y' : Int
deriving DecidableEq, Repr

/-- The column is one of the horizontal arm. -/
def Ell.InCols (e : Ell) (c : Int) : Prop := min e.x e.x' ≤ c ∧ c ≤ max e.x e.x'

/-- The row is one of the vertical arm. -/
def Ell.InRows (e : Ell) (r : Int) : Prop := min e.y e.y' ≤ r ∧ r ≤ max e.y e.y'

/-- Number of qubits in each chain of the block. -/
def Ell.len (e : Ell) : Int := (max e.x e.x' - min e.x e.x' + 1) + (max e.y e.y' - min e.y e.y' + 1)

/-- Number of chains in the block. -/
noncomputable def Ell.size (E : List (Qb × Qb)) (L : Nat) (e : Ell) : Nat :=
  min (hLines E L e.y (min e.x e.x') (max e.x e.x')) (vLines E L e.x (min e.y e.y') (max e.y e.y'))

/-- The next block has the columns of `e` but the one of its corner, and the rows of `e` and one more, that of its own corner. -/
def Ell.Next (e f : Ell) : Prop := (∀ c, f.InCols c ↔ e.InCols c ∧ c ≠ e.x) ∧ (∀ r, f.InRows r ↔ e.InRows r ∨ r = f.y) ∧ ¬ e.InRows f.y

/-- A native clique with chains of `n` qubits: blocks in the grid, each the next of the one before. -/
structure Native (M N n : Nat) (es : List Ell) : Prop where
  next : es.IsChain Ell.Next
  cols : ∀ e ∈ es, ∀ c, e.InCols c → 0 ≤ c ∧ c < M
  rows : ∀ e ∈ es, ∀ r, e.InRows r → 0 ≤ r ∧ r < N
  len : ∀ e ∈ es, e.len = n

/-- Number of chains. -/
noncomputable def size (E : List (Qb × Qb)) (L : Nat) (es : List Ell) : Nat := (es.map (Ell.size E L)).sum

/-- A rectangle of cells. -/
structure Box where
  x0 : Int
  x1 : Int
  y0 : Int
  y1 : Int
deriving DecidableEq, Repr

/-- The rectangle is part of the grid and not empty. -/
def Box.Inside (M N : Nat) (b : Box) : Prop := 0 ≤ b.x0 ∧ b.x0 ≤ b.x1 ∧ b.x1 < M ∧ 0 ≤ b.y0 ∧ b.y0 ≤ b.y1 ∧ b.y1 < N

/-- Number of columns: the length of horizontal chains across. -/
def Box.width (b : Box) : Int := b.x1 - b.x0 + 1

/-- Number of rows. -/
def Box.height (b : Box) : Int := b.y1 - b.y0 + 1

/-- Number of horizontal and of vertical unbroken lines across the rectangle. -/
noncomputable def Box.lines (E : List (Qb × Qb)) (L : Nat) (b : Box) : Nat × Nat :=
  (((List.range b.height.toNat).map fun (i : Nat) => hLines E L (b.y0 + i) b.x0 b.x1).sum, ((List.range b.width.toNat).map fun (i : Nat) => vLines E L (b.x0 + i) b.y0 b.y1).sum)

/-- The lines across the rectangle are enough for sides of `n` and `m` chains. -/
def Box.Holds (E : List (Qb × Qb)) (L n m : Nat) (b : Box) : Prop :=
  (n ≤ (b.lines E L).1 ∧ m ≤ (b.lines E L).2) ∨ (m ≤ (b.lines E L).1 ∧ n ≤ (b.lines E L).2)

/-- Chains across the rectangle respect the limits; `none` is no limit. -/
def Box.Allowed (maxLength imbalance : Option Int) (b : Box) : Prop :=
  (∀ l, maxLength = some l → b.width ≤ l ∧ b.height ≤ l) ∧ ∀ d, imbalance = some d → b.width - b.height ≤ d ∧ b.height - b.width ≤ d

/-- Order of pairs. -/
def LexLe {β : Type} [LT β] [LE β] (a b : β × β) : Prop := a.1 < b.1 ∨ a.1 = b.1 ∧ a.2 ≤ b.2

end Eden
end Spec
end MM
