import Verif.Pack.Cells
import Verif.Spec.Pack

/-! The invariant of the packing grid, and what the search for a free region finds. -/

namespace MM
namespace Pack

open Spec.Pack

/-- A rectangle covers a column. -/
def Wide (R : Placed) (c : Span) : Prop := R.x ≤ c.lo ∧ c.hi ≤ R.x + R.w

/-- A rectangle covers a row. -/
def Tall (R : Placed) (r : Span) : Prop := R.y ≤ r.lo ∧ r.hi ≤ R.y + R.h

/-- The rectangles cover a column from one row to another. -/
def Solid (P : List Placed) (c : Span) (a b : Int) : Prop :=
  ∀ z, a ≤ z → z < b → ∃ Q ∈ P, Wide Q c ∧ Q.y ≤ z ∧ z < Q.y + Q.h

theorem Solid.sub {P : List Placed} {c : Span} {a b a' b' : Int} (h : Solid P c a b) (ha : a ≤ a') (hb : b' ≤ b) :
    Solid P c a' b' := fun z h1 h2 => h z (by omega) (by omega)

theorem Solid.trans {P : List Placed} {c : Span} {a b d : Int} (h : Solid P c a b) (h' : Solid P c b d) : Solid P c a d := by
  intro z h1 h2
  by_cases hz : z < b
  · exact h z h1 hz
  · exact h' z (by omega) h2

theorem Solid.mono {P P' : List Placed} {c c' : Span} {a b : Int} (h : Solid P c a b) (hP : ∀ Q ∈ P, Q ∈ P')
    (h1 : c.lo ≤ c'.lo) (h2 : c'.hi ≤ c.hi) : Solid P' c' a b := by
  intro z h3 h4
  obtain ⟨Q, hQ, q1, q2⟩ := h z h3 h4
  have q1 : Q.x ≤ c.lo ∧ c.hi ≤ Q.x + Q.w := q1
  exact ⟨Q, hP Q hQ, ⟨by omega, by omega⟩, q2⟩

/-- The invariant of a grid that holds the rectangles `P`. -/
structure Inv (g : Grid) (P : List Placed) : Prop where
  cols : g.cols.Ok g.width
  rows : g.rows.Ok g.height
  colSize : g.cols.size = g.size
  rowSize : g.rows.size = g.size
  colUsed : g.cols.used ≤ g.size
  rowUsed : g.rows.used ≤ g.size
  pos : ∀ R ∈ P, 0 ≤ R.x ∧ 0 ≤ R.y ∧ 0 < R.w ∧ 0 < R.h ∧ R.x + R.w ≤ g.width ∧ R.y + R.h ≤ g.height
  colEdge : ∀ R ∈ P, ∀ c ∈ g.cols.spans, (R.x ≤ c.lo ∨ c.hi ≤ R.x) ∧ (R.x + R.w ≤ c.lo ∨ c.hi ≤ R.x + R.w)
  rowEdge : ∀ R ∈ P, ∀ r ∈ g.rows.spans, (R.y ≤ r.lo ∨ r.hi ≤ R.y) ∧ (R.y + R.h ≤ r.lo ∨ r.hi ≤ R.y + R.h)
  apart : P.Pairwise Apart
  support : ∀ R ∈ P, R.y = 0 ∨ ∃ Q ∈ P, Q.x ≤ R.x ∧ R.x < Q.x + Q.w ∧ Q.y + Q.h = R.y
  init : ∀ r ∈ g.rows.spans, ∀ c ∈ g.cols.spans, ∃ t, g.jump r.index c.index = some t
  marks : ∀ r ∈ g.rows.spans, ∀ c ∈ g.cols.spans, ∀ R ∈ P, Wide R c → Tall R r → (c.lo = R.x ∨ r.lo = R.y) →
    g.jump r.index c.index ≠ some .free
  full : ∀ r ∈ g.rows.spans, ∀ c ∈ g.cols.spans, g.jump r.index c.index = some .full →
    ∃ Q ∈ P, Wide Q c ∧ Q.y + Q.h = g.height
  target : ∀ r ∈ g.rows.spans, ∀ c ∈ g.cols.spans, ∀ t, g.jump r.index c.index = some (.row t) →
    ∃ s ∈ g.rows.spans, s.index = t ∧ r.lo < s.lo ∧ ∃ Q ∈ P, Wide Q c ∧ Q.y + Q.h = s.lo
  fullSolid : ∀ r ∈ g.rows.spans, ∀ c ∈ g.cols.spans, g.jump r.index c.index = some .full → Solid P c r.lo g.height
  rowSolid : ∀ r ∈ g.rows.spans, ∀ c ∈ g.cols.spans, ∀ s ∈ g.rows.spans, g.jump r.index c.index = some (.row s.index) →
    Solid P c r.lo s.lo

/-- Two grids differ at most in the jump matrix. -/
structure Alike (g g' : Grid) : Prop where
  size : g'.size = g.size
  width : g'.width = g.width
  height : g'.height = g.height
  cols : g'.cols = g.cols
  rows : g'.rows = g.rows

theorem Alike.refl (g : Grid) : Alike g g := ⟨rfl, rfl, rfl, rfl, rfl⟩

theorem Alike.trans {a b c : Grid} (h : Alike a b) (h' : Alike b c) : Alike a c :=
  ⟨h'.size.trans h.size, h'.width.trans h.width, h'.height.trans h.height, h'.cols.trans h.cols, h'.rows.trans h.rows⟩

/-- A region for a rectangle of size `w`, `h` at `x`, `y` that the search may return. -/
structure Fits (g : Grid) (P : List Placed) (N : Placed) (reg : Region) : Prop where
  hw : 0 < N.w
  hh : 0 < N.h
  rowEnd : reg.rowEnd = N.y + N.h
  colEnd : reg.colEnd = N.x + N.w
  rowStart : ∃ r ∈ g.rows.spans, r.index = reg.rowStart ∧ r.lo = N.y
  colStart : ∃ c ∈ g.cols.spans, c.index = reg.colStart ∧ c.lo = N.x
  row : ∃ r ∈ g.rows.spans, r.index = reg.row ∧ r.lo < N.y + N.h ∧ N.y + N.h ≤ r.hi
  col : ∃ c ∈ g.cols.spans, c.index = reg.col ∧ c.lo < N.x + N.w ∧ N.x + N.w ≤ c.hi
  left : ∀ r ∈ g.rows.spans, N.y ≤ r.lo → r.lo < N.y + N.h → g.jump r.index reg.colStart = some .free
  top : ∀ c ∈ g.cols.spans, N.x ≤ c.lo → c.lo < N.x + N.w → g.jump reg.rowStart c.index = some .free
  clean : N.y = 0 ∨ ∃ Q ∈ P, Q.x ≤ N.x ∧ N.x < Q.x + Q.w ∧ Q.y + Q.h = N.y

theorem Inv.read {g : Grid} {P : List Placed} (h : Inv g P) {r c : Span} (hr : r ∈ g.rows.spans) (hc : c ∈ g.cols.spans) :
    ∃ t, g.jump r.index c.index = some t ∧ g.read r.index c.index = .ok t := by
  obtain ⟨t, ht⟩ := h.init r hr c hc
  refine ⟨t, ht, ?_⟩
  have h1 := h.rows.index_lt hr
  have h2 := h.cols.index_lt hc
  have := h.rowUsed
  have := h.colUsed
  rw [Grid.read, if_pos ⟨by omega, by omega⟩, ht]

/-- A rectangle that fits overlaps none of those placed before. -/
theorem Fits.apart {g : Grid} {P : List Placed} {N : Placed} {reg : Region} (h : Inv g P) (f : Fits g P N reg) :
    ∀ R ∈ P, Apart R N := by
  have hw := f.hw
  have hh := f.hh
  obtain ⟨rs, hrs, hrsi, hrsl⟩ := f.rowStart
  obtain ⟨cs, hcs, hcsi, hcsl⟩ := f.colStart
  obtain ⟨rr, hrr, hrri, hrrl, hrrh⟩ := f.row
  obtain ⟨cc, hcc, hcci, hccl, hcch⟩ := f.col
  have key : ∀ (n : Nat) (R : Placed), R.y.toNat < n → R ∈ P → ¬ Apart R N → False := by
    intro n
    induction n with
    | zero => intro R h; omega
    | succ n ih =>
      intro R hn hR hA
      simp only [Apart, not_or, Int.not_le] at hA
      obtain ⟨h1, h2, h3, h4⟩ := hA
      obtain ⟨p1, p2, p3, p4, p5, p6⟩ := h.pos R hR
      have rsb := h.rows.mem hrs
      have csb := h.cols.mem hcs
      by_cases hx : R.x ≤ N.x
      · -- the rectangle reaches into the first column
        have e1 := h.colEdge R hR cs hcs
        have hwide : Wide R cs := ⟨by omega, by omega⟩
        by_cases hy : R.y ≤ N.y
        · have e2 := h.rowEdge R hR rs hrs
          have htall : Tall R rs := ⟨by omega, by omega⟩
          have hfree : g.jump rs.index cs.index = some .free := by
            rw [hcsi]; exact f.left rs hrs (by omega) (by omega)
          rcases Int.lt_or_eq_of_le hy with hy | hy
          · -- the start is clean
            rcases f.clean with hc | ⟨Q, hQ, q1, q2, q3⟩
            · omega
            · have hne : Q ≠ R := by rintro rfl; omega
              have hQR : Apart Q R := by
                have hp := List.pairwise_iff_getElem.mp h.apart
                obtain ⟨i, hi, rfl⟩ := List.mem_iff_getElem.mp hQ
                obtain ⟨j, hj, rfl⟩ := List.mem_iff_getElem.mp hR
                rcases Nat.lt_trichotomy i j with hl | hl | hl
                · exact hp i j hi hj hl
                · subst hl; exact absurd rfl hne
                · have := hp j i hj hi hl
                  simp only [Apart] at this ⊢
                  omega
              have q := h.pos Q hQ
              simp only [Apart] at hQR
              omega
          · exact h.marks rs hrs cs hcs R hR hwide htall (Or.inr (by omega)) hfree
        · -- its top row crosses the first column
          obtain ⟨r, hr, r1, r2⟩ := h.rows.asc.cover (z := R.y) p2 (by rw [h.rows.last]; omega)
          have e2 := h.rowEdge R hR r hr
          have rb := h.rows.mem hr
          have htall : Tall R r := ⟨by omega, by omega⟩
          refine h.marks r hr cs hcs R hR hwide htall (Or.inr (by omega)) ?_
          rw [hcsi]
          exact f.left r hr (by omega) (by omega)
      · by_cases hy : R.y ≤ N.y
        · -- its left column crosses the first row
          obtain ⟨c, hc, c1, c2⟩ := h.cols.asc.cover (z := R.x) p1 (by rw [h.cols.last]; omega)
          have e1 := h.colEdge R hR c hc
          have e2 := h.rowEdge R hR rs hrs
          have cb := h.cols.mem hc
          have hwide : Wide R c := ⟨by omega, by omega⟩
          have htall : Tall R rs := ⟨by omega, by omega⟩
          refine h.marks rs hrs c hc R hR hwide htall (Or.inl (by omega)) ?_
          rw [hrsi]
          exact f.top c hc (by omega) (by omega)
        · -- it rests on another one that overlaps as well
          rcases h.support R hR with h0 | ⟨Q, hQ, q1, q2, q3⟩
          · obtain ⟨n1, n2, n3⟩ := h.rows.mem hrs
            omega
          · have q := h.pos Q hQ
            have := h.rows.mem hrs
            refine ih Q (by omega) hQ ?_
            simp only [Apart, not_or, Int.not_le]
            omega
  intro R hR
  by_contra hA
  exact key _ R (Nat.lt_succ_self _) hR hA

/-- The column at `x` is free from `y` on for the height `h`. -/
def ColFree (P : List Placed) (x h y : Int) : Prop :=
  ∀ Q ∈ P, ¬ (Q.x ≤ x ∧ x < Q.x + Q.w ∧ Q.y < y + h ∧ y < Q.y + Q.h)

/-- The row at `y` is free from `x` on for the width `w`. -/
def RowFree (P : List Placed) (x w y : Int) : Prop :=
  ∀ Q ∈ P, ¬ (Q.y ≤ y ∧ y < Q.y + Q.h ∧ Q.x < x + w ∧ x < Q.x + Q.w)

/-- The lowest place in the column at `x` for the height `h`. -/
structure Lowest (P : List Placed) (x h y : Int) : Prop where
  nonneg : 0 ≤ y
  free : ColFree P x h y
  least : ∀ y', 0 ≤ y' → y' < y → ¬ ColFree P x h y'

theorem Lowest.unique {P : List Placed} {x h y y' : Int} (a : Lowest P x h y) (b : Lowest P x h y') : y = y' := by
  by_contra hne
  rcases Int.lt_or_gt_of_ne hne with hl | hl
  · exact b.least y a.nonneg hl a.free
  · exact a.least y' b.nonneg hl b.free

/-- The rectangle of size `w`, `h` can go to the column at `x` if the width is not bounded. -/
def CanGo (P : List Placed) (H w h x : Int) : Prop := ∃ y, Lowest P x h y ∧ y + h ≤ H ∧ RowFree P x w y

/-- The place that the search picks. -/
structure Pick (g : Grid) (P : List Placed) (N : Placed) : Prop where
  start : ∃ c ∈ g.cols.spans, c.lo = N.x
  low : Lowest P N.x N.h N.y
  high : N.y + N.h ≤ g.height
  row : RowFree P N.x N.w N.y
  wide : N.x + N.w ≤ g.width
  first : ∀ c ∈ g.cols.spans, c.lo < N.x → ¬ CanGo P g.height N.w N.h c.lo

/-- The start of each column is zero or the right end of a rectangle. -/
def Edges (g : Grid) (P : List Placed) : Prop := ∀ c ∈ g.cols.spans, c.lo = 0 ∨ ∃ R ∈ P, R.x + R.w = c.lo

theorem Inv.wide {g : Grid} {P : List Placed} (h : Inv g P) {Q : Placed} (hQ : Q ∈ P) {c : Span} (hc : c ∈ g.cols.spans)
    (h1 : Q.x ≤ c.lo) (h2 : c.lo < Q.x + Q.w) : Wide Q c := by
  have := h.colEdge Q hQ c hc
  have := h.cols.mem hc
  exact ⟨by omega, by omega⟩

theorem Inv.distinct {g : Grid} {P : List Placed} (h : Inv g P) {Q R : Placed} (hQ : Q ∈ P) (hR : R ∈ P) (hne : Q ≠ R) :
    Apart Q R := by
  have hp := List.pairwise_iff_getElem.mp h.apart
  obtain ⟨i, hi, rfl⟩ := List.mem_iff_getElem.mp hQ
  obtain ⟨j, hj, rfl⟩ := List.mem_iff_getElem.mp hR
  rcases Nat.lt_trichotomy i j with hl | hl | hl
  · exact hp i j hi hj hl
  · subst hl; exact absurd rfl hne
  · have := hp j i hj hi hl
    simp only [Apart] at this ⊢
    omega

end Pack
end MM
