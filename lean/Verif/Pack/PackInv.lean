import Verif.Pack.SplitInv
import Verif.Pack.Pack

/-! What placing all rectangles and searching for a bounding box do. -/

namespace MM
namespace Pack

open Spec.Pack

/-- The sizes of the parts of a grid agree. -/
structure Sane (g : Grid) : Prop where
  cols : g.cols.size = g.size
  rows : g.rows.size = g.size
  pos : 1 ≤ g.size

/-- A rectangle has positive sizes that fit in an `int`. -/
structure Small (r : Rect) : Prop where
  w : 0 < r.width
  h : 0 < r.height
  w' : r.width < 2 ^ 31
  h' : r.height < 2 ^ 31

/-- A rectangle has positive sizes. -/
def Positive (r : Rect) : Prop := 0 < r.width ∧ 0 < r.height

/-- The place of a rectangle. -/
def Rect.at_ (r : Rect) : Placed := ⟨r.x, r.y, r.width, r.height⟩

/-- What packing does not change. -/
def Rect.key (r : Rect) : Int × Int × Nat × Int := (r.width, r.height, r.index, r.area)

theorem clear_inv {g : Grid} (h : Sane g) (hw : 0 < g.width) (hh : 0 < g.height) : Inv g.clear [] := by
  have hp := h.pos
  have hc : g.clear.cols.spans = [⟨0, 0, g.width⟩] := rfl
  have hr : g.clear.rows.spans = [⟨0, 0, g.height⟩] := rfl
  have hj : g.clear.jump 0 0 = some .free := rfl
  have hok : ∀ (l : Link) (E : Int), 0 < E → (l.clear E).Ok E := by
    intro l E hE
    exact ⟨by simp [Link.clear], ⟨hE, trivial⟩, rfl, by simp [Link.clear], by simp [Link.clear]⟩
  refine ⟨hok _ _ hw, hok _ _ hh, h.cols, h.rows, hp, hp, by simp, by simp, by simp, List.Pairwise.nil, by simp, ?_, ?_, ?_,
    ?_, ?_, ?_⟩
  · rw [hc, hr]
    simp [hj]
  · simp
  · rw [hc, hr]
    simp [hj]
  · rw [hc, hr]
    simp [hj]
  · rw [hc, hr]
    simp [hj]
  · rw [hc, hr]
    simp [hj]

theorem Inv.sane {g : Grid} {P : List Placed} (h : Inv g P) : Sane g := by
  refine ⟨h.colSize, h.rowSize, ?_⟩
  obtain ⟨c, hc⟩ := List.exists_mem_of_ne_nil _ h.cols.ne
  have := h.cols.lt c hc
  have := h.colUsed
  omega

/-- What the loop of `Grid.pack` does. -/
theorem packAll_spec : ∀ (rs : List Rect) (g : Grid) (P : List Placed), Inv g P → (∀ r ∈ rs, Positive r) →
    g.rows.used ≤ P.length + 1 → g.cols.used ≤ P.length + 1 → P.length + rs.length + 1 ≤ g.size →
    ∃ done rest, g.packAll rs = .ok (done ++ rest) ∧ (done ++ rest).map Rect.key = rs.map Rect.key ∧
      (P ++ done.map Rect.at_).Pairwise Apart ∧
      (∀ r ∈ done, 0 ≤ r.x ∧ 0 ≤ r.y ∧ r.x + r.width ≤ g.width ∧ r.y + r.height ≤ g.height) ∧
      (rest = [] ∨ ∃ r rs, rest = r :: rs ∧ r.x = -1 ∧ r.y = -1) := by
  intro rs
  induction rs with
  | nil =>
    intro g P h _ _ _ _
    exact ⟨[], [], rfl, rfl, by simpa using h.apart, by simp, Or.inl rfl⟩
  | cons r rs ih =>
    intro g P h hpos hru hcu hsz
    obtain ⟨hw, hh⟩ := hpos r (by simp)
    obtain ⟨g1, d, reg, h1, hI1, hA1, -, -, hf, -⟩ := find_spec h hw hh
    simp only [Grid.packAll, h1, bind, Except.bind]
    cases reg with
    | none => exact ⟨[], _, rfl, rfl, by simpa using h.apart, by simp, Or.inr ⟨_, _, rfl, rfl, rfl⟩⟩
    | some reg =>
      obtain ⟨x, y, F, -⟩ := hf reg rfl
      simp only [List.length_cons] at hsz
      obtain ⟨g2, h2, hI2, s2, w2, y2, u2, v2, -⟩ := split_spec hI1 F (by rw [hA1.rows, hA1.size]; omega)
        (by rw [hA1.cols, hA1.size]; omega)
      rw [hA1.rows] at u2
      rw [hA1.cols] at v2
      have hx : g1.cols.startPos reg.colStart = x := by
        obtain ⟨c, hc, e1, e2⟩ := F.colStart
        rw [← e1, hI1.cols.startPos hc]
        exact e2
      have hy : g1.rows.startPos reg.rowStart = y := by
        obtain ⟨c, hc, e1, e2⟩ := F.rowStart
        rw [← e1, hI1.rows.startPos hc]
        exact e2
      obtain ⟨done, rest, k1, k2, k3, k4, k5⟩ := ih g2 (P ++ [⟨x, y, r.width, r.height⟩]) hI2
        (fun r hr => hpos r (by simp [hr])) (by simp only [List.length_append, List.length_singleton]; omega)
        (by simp only [List.length_append, List.length_singleton]; omega)
        (by simp only [List.length_append, List.length_singleton]; rw [s2, hA1.size]; omega)
      simp only [h2, k1, hx, hy]
      refine ⟨{ r with x := x, y := y } :: done, rest, rfl, ?_, ?_, ?_, k5⟩
      · simp only [List.cons_append, List.map_cons, k2]
        rfl
      · simpa [List.append_assoc, Rect.at_] using k3
      · intro s hs
        rw [List.mem_cons] at hs
        rcases hs with rfl | hs
        · have := hI2.pos ⟨x, y, r.width, r.height⟩ (by simp)
          simp only at this ⊢
          rw [w2, y2, hA1.width, hA1.height] at this
          omega
        · have := k4 s hs
          rw [w2, y2, hA1.width, hA1.height] at this
          exact this

theorem toInt_small {a : Int} (h0 : 0 ≤ a) (h1 : a < 2 ^ 31) : toInt a = a := by
  unfold toInt
  rw [Int.bmod_eq_of_le] <;> omega

/-- What the loop over rectangles of `grid_search_bbox` does. -/
theorem placeAll_spec : ∀ (rs : List Rect) (g : Grid) (P : List Placed) (delta gw : Int), Inv g P → (∀ r ∈ rs, Small r) →
    g.rows.used ≤ P.length + 1 → g.cols.used ≤ P.length + 1 → P.length + rs.length + 1 ≤ g.size → 1 ≤ delta →
    gw ≤ g.width →
    ∃ g' delta' gw' all, g.placeAll delta gw rs = .ok (g', delta', gw', all) ∧ Sane g' ∧ g'.size = g.size ∧
      g'.width = g.width ∧ g'.height = g.height ∧ 1 ≤ delta' ∧ gw ≤ gw' ∧ gw' ≤ g.width ∧
      (rs ≠ [] → all = true → 0 < gw') := by
  intro rs
  induction rs with
  | nil =>
    intro g P delta gw h _ _ _ _ hd hgw
    exact ⟨g, delta, gw, true, rfl, h.sane, rfl, rfl, rfl, hd, Int.le_refl _, hgw, fun h => absurd rfl h⟩
  | cons r rs ih =>
    intro g P delta gw h hpos hru hcu hsz hd hgw
    have hr := hpos r (by simp)
    obtain ⟨g1, d, reg, h1, hI1, hA1, hd1, hd2, hf, -⟩ := find_spec h hr.w hr.h
    have ht : toInt d = d := toInt_small (by omega) (by have := hr.h'; omega)
    simp only [Grid.placeAll, h1, bind, Except.bind, ht]
    have hnew : 1 ≤ (if d < delta then d else delta) := by split <;> omega
    cases reg with
    | none => exact ⟨g1, _, gw, false, rfl, hI1.sane, hA1.size, hA1.width, hA1.height, hnew, Int.le_refl _, hgw,
        fun _ h => by cases h⟩
    | some reg =>
      obtain ⟨x, y, F, -⟩ := hf reg rfl
      simp only [List.length_cons] at hsz
      obtain ⟨g2, h2, hI2, s2, w2, y2, u2, v2, -⟩ := split_spec hI1 F (by rw [hA1.rows, hA1.size]; omega)
        (by rw [hA1.cols, hA1.size]; omega)
      rw [hA1.rows] at u2
      rw [hA1.cols] at v2
      have hp := hI2.pos ⟨x, y, r.width, r.height⟩ (by simp)
      simp only at hp
      have hce := F.colEnd
      simp only at hce
      rw [w2, hA1.width] at hp
      have hgw' : (if gw < reg.colEnd then reg.colEnd else gw) ≤ g1.width := by
        rw [hA1.width]
        split <;> omega
      have hgw2 : gw ≤ (if gw < reg.colEnd then reg.colEnd else gw) ∧ 0 < (if gw < reg.colEnd then reg.colEnd else gw) := by
        split <;> omega
      simp only [hgw', not_true_eq_false, if_false, h2]
      obtain ⟨g3, d3, gw3, all, k1, k2, k3, k4, k5, k6, k7, k8, k9⟩ := ih g2 (P ++ [⟨x, y, r.width, r.height⟩])
        (if d < delta then d else delta) (if gw < reg.colEnd then reg.colEnd else gw) hI2
        (fun r hr => hpos r (by simp [hr])) (by simp only [List.length_append, List.length_singleton]; omega)
        (by simp only [List.length_append, List.length_singleton]; omega)
        (by simp only [List.length_append, List.length_singleton]; rw [s2, hA1.size]; omega) hnew
        (by rw [w2]; exact hgw')
      refine ⟨g3, d3, gw3, all, k1, k2, by rw [k3, s2, hA1.size], by rw [k4, w2, hA1.width], by rw [k5, y2, hA1.height], k6,
        by omega, by rw [w2, hA1.width] at k8; exact k8, fun _ _ => by omega⟩

/-- A box in which the rectangles found places, using the given width. -/
def Ran (n : Nat) (rs : List Rect) (W w h : Int) : Prop :=
  ∃ g d g' d', Sane g ∧ g.size = n ∧ g.width = W ∧ g.height = h ∧ 0 < W ∧ 1 ≤ d ∧ g.clear.placeAll d 0 rs = .ok (g', d', w, true)

theorem tdiv_mul_le' {a h : Int} (ha : 0 ≤ a) (hh : 0 < h) : a.tdiv h * h ≤ a := by
  rw [Int.tdiv_eq_ediv_of_nonneg ha]
  exact Int.ediv_mul_le a (by omega)

/-- What the main loop of `grid_search_bbox` does without assertions. -/
theorem searchLoop_spec {rs : List Rect} {b : Box} (hs : ∀ r ∈ rs, Small r) (hne : rs ≠ []) (hb : 1 ≤ b.maxHeight)
    (hbw : 1 ≤ b.minWidth) :
    ∀ (fuel : Nat) (g : Grid) (best : Best), Sane g → rs.length + 1 ≤ g.size → 1 ≤ g.height → g.width ≤ b.maxWidth →
    0 ≤ best.area → (b.maxHeight + 1 - g.height).toNat < fuel →
    ∃ g' best', g.searchLoop false rs b fuel best = .ok (g', best') ∧ Sane g' ∧ g'.size = g.size ∧
      (best' = best ∨ (0 < best'.w ∧ 0 < best'.h ∧ best'.h ≤ b.maxHeight ∧
        best'.area = best'.h * best'.w ∧ ∃ W, best'.w ≤ W ∧ W ≤ b.maxWidth ∧ Ran g.size rs W best'.w best'.h)) ∧
      best'.area ≤ max best.area (g.width * g.height) ∧
      ∀ g1 d1 gw, g.height ≤ b.maxHeight ∧ b.minWidth ≤ g.width →
        g.clear.placeAll b.maxHeight 0 rs = .ok (g1, d1, gw, true) → best'.area ≤ g.height * gw := by
  intro fuel
  induction fuel with
  | zero => intro g best hg hsz hh hw ha hf; omega
  | succ fuel ih =>
    intro g best hg hsz hh hw ha hf
    simp only [Grid.searchLoop]
    by_cases hcond : g.height ≤ b.maxHeight ∧ b.minWidth ≤ g.width
    · rw [if_pos hcond]
      have hI := clear_inv hg (by omega) (by omega)
      obtain ⟨g1, d1, gw, all, h1, hS1, s1, w1, y1, p1, p2, p3, p4⟩ := placeAll_spec rs g.clear [] b.maxHeight 0 hI hs
        (by simp [Grid.clear, Link.clear]) (by simp [Grid.clear, Link.clear]) (by simpa [Grid.clear] using hsz) hb
        (by show (0 : Int) ≤ g.width; omega)
      have s1 : g1.size = g.size := s1
      have w1 : g1.width = g.width := w1
      have y1 : g1.height = g.height := y1
      have p3 : gw ≤ g.width := p3
      simp only [h1, bind, Except.bind, Bool.false_eq_true, false_and, if_false]
      -- what happens after the box has been tried
      have hcont : ∀ best1 : Best, 0 ≤ best1.area → best1.area ≤ max best.area (g.width * g.height) →
          (best1 = best ∨ (0 < best1.w ∧ 0 < best1.h ∧ best1.h ≤ b.maxHeight ∧
            best1.area = best1.h * best1.w ∧ ∃ W, best1.w ≤ W ∧ W ≤ b.maxWidth ∧ Ran g.size rs W best1.w best1.h)) →
          ∃ g' best',
            (if g1.height + d1 = 0 then Except.error Err.ub
              else Grid.searchLoop false rs b fuel
                { g1 with
                  width := if min (best1.area.tdiv (g1.height + d1)) b.maxWidth * (g1.height + d1) = best1.area then
                      min (best1.area.tdiv (g1.height + d1)) b.maxWidth - 1
                    else min (best1.area.tdiv (g1.height + d1)) b.maxWidth
                  height := g1.height + d1 } best1) = .ok (g', best') ∧ Sane g' ∧ g'.size = g.size ∧
            (best' = best ∨ (0 < best'.w ∧ 0 < best'.h ∧ best'.h ≤ b.maxHeight ∧
              best'.area = best'.h * best'.w ∧ ∃ W, best'.w ≤ W ∧ W ≤ b.maxWidth ∧ Ran g.size rs W best'.w best'.h)) ∧
            best'.area ≤ max best.area (g.width * g.height) ∧ best'.area ≤ best1.area := by
        intro best1 ha1 hb1 hor
        rw [if_neg (by omega)]
        have hpos : 0 < g1.height + d1 := by omega
        have hle1 : min (best1.area.tdiv (g1.height + d1)) b.maxWidth ≤ best1.area.tdiv (g1.height + d1) := Int.min_le_left _ _
        have hle2 : min (best1.area.tdiv (g1.height + d1)) b.maxWidth ≤ b.maxWidth := Int.min_le_right _ _
        have hmul := tdiv_mul_le' ha1 hpos
        generalize min (best1.area.tdiv (g1.height + d1)) b.maxWidth = m at *
        generalize hm' : (if m * (g1.height + d1) = best1.area then m - 1 else m) = m'
        have hm'le : m' ≤ m := by subst hm'; split <;> omega
        have hprod : m' * (g1.height + d1) ≤ best1.area := by
          have : m' * (g1.height + d1) ≤ best1.area.tdiv (g1.height + d1) * (g1.height + d1) :=
            Int.mul_le_mul_of_nonneg_right (by omega) (by omega)
          omega
        obtain ⟨g', best', k1, k2, k3, k4, k5, -⟩ := ih { g1 with width := m', height := g1.height + d1 } best1
          ⟨hS1.cols, hS1.rows, hS1.pos⟩ (by show _ ≤ g1.size; omega) (by show (1 : Int) ≤ g1.height + d1; omega)
          (by show m' ≤ _; omega) ha1 (by show (b.maxHeight + 1 - (g1.height + d1)).toNat < fuel; omega)
        refine ⟨g', best', k1, k2, by rw [k3]; exact s1, ?_, ?_, ?_⟩
        · rcases k4 with k4 | ⟨k4, k5, k6, k7, W, k8, k9, k10⟩
          · rw [k4]; exact hor
          · refine Or.inr ⟨k4, k5, k6, k7, W, k8, k9, ?_⟩
            rw [← s1]
            exact k10
        · have k5 : best'.area ≤ max best1.area (m' * (g1.height + d1)) := k5
          omega
        · have k5 : best'.area ≤ max best1.area (m' * (g1.height + d1)) := k5
          omega
      cases all with
      | false =>
        simp only [Bool.false_eq_true, if_false]
        obtain ⟨g', best', k1, k2, k3, k4, k5, -⟩ := hcont best ha (by omega) (Or.inl rfl)
        exact ⟨g', best', k1, k2, k3, k4, k5, fun _ _ _ _ e => (by cases e)⟩
      | true =>
        have hgw := p4 hne rfl
        simp only [if_true]
        have hnn : 0 ≤ g1.height * gw := by
          have := Int.mul_le_mul_of_nonneg_right (show (0 : Int) ≤ g1.height by omega) (show (0 : Int) ≤ gw by omega)
          omega
        have harea : g1.height * gw ≤ max best.area (g.width * g.height) := by
          have : g1.height * gw ≤ g.height * g.width := by
            rw [y1]
            exact Int.mul_le_mul_of_nonneg_left p3 (by omega)
          rw [Int.mul_comm g.width]
          omega
        have hsucc : 0 < gw ∧ 0 < g1.height ∧ g1.height ≤ b.maxHeight ∧ g1.height * gw = g1.height * gw ∧
            ∃ W, gw ≤ W ∧ W ≤ b.maxWidth ∧ Ran g.size rs W gw g1.height :=
          ⟨hgw, by omega, by omega, rfl, g.width, p3, hw, g, b.maxHeight, g1, d1, hg, rfl, rfl, y1.symm, by omega, hb, h1⟩
        by_cases hhappy : g1.height * gw ≤ 1
        · simp only [decide_eq_true hhappy, if_true]
          refine ⟨g1, _, rfl, hS1, s1, Or.inr hsucc, harea, fun _ _ _ _ e => ?_⟩
          cases e
          rw [← y1]
          exact Int.le_refl _
        · simp only [decide_eq_false hhappy, Bool.false_eq_true, if_false]
          obtain ⟨g', best', k1, k2, k3, k4, k5, k6⟩ := hcont ⟨g1.height * gw, gw, g1.height⟩ hnn harea (Or.inr hsucc)
          refine ⟨g', best', k1, k2, k3, k4, k5, fun _ _ _ _ e => ?_⟩
          cases e
          rw [← y1]
          exact k6
    · rw [if_neg hcond]
      exact ⟨g, best, rfl, hg, rfl, Or.inl rfl, by omega, fun _ _ _ e => absurd e hcond⟩

/-- What `grid_search_bbox` does without assertions. -/
theorem search_spec {g : Grid} {rs : List Rect} {b : Box} (hs : ∀ r ∈ rs, Small r) (hne : rs ≠ []) (hg : Sane g)
    (hn : g.size = rs.length + 1) (hb : 1 ≤ b.maxHeight) (hbw : 1 ≤ b.minWidth) (hbh : 1 ≤ b.minHeight)
    (hba : 1 ≤ b.maxArea) (hbx : 0 ≤ b.maxWidth) :
    ∃ g' ok, g.search false rs b = .ok (g', ok) ∧ Sane g' ∧ g'.size = g.size ∧ 0 < g'.height ∧ 0 ≤ g'.width ∧
      (ok = true → 0 < g'.width ∧ g'.height ≤ b.maxHeight ∧ g'.width * g'.height ≤ b.maxArea ∧
        ∃ W, g'.width ≤ W ∧ W ≤ b.maxWidth ∧ Ran g.size rs W g'.width g'.height) ∧
      ∀ g1 d1 gw m, m = min (b.maxArea.tdiv b.minHeight) b.maxWidth → b.minHeight ≤ b.maxHeight → b.minWidth ≤ m →
        ({ g with width := m, height := b.minHeight } : Grid).clear.placeAll b.maxHeight 0 rs = .ok (g1, d1, gw, true) →
        b.minHeight * gw < b.maxArea - 1 → ok = true ∧ g'.width * g'.height ≤ b.minHeight * gw := by
  have hlen : 0 < rs.length := List.length_pos_iff.mpr hne
  simp only [Grid.search]
  rw [if_neg (by omega)]
  have htake : rs.take (g.size - 1) = rs := List.take_of_length_le (by omega)
  rw [htake]
  have hmul := tdiv_mul_le' (a := b.maxArea) (h := b.minHeight) (by omega) (by omega)
  have hnn : 0 ≤ b.maxArea.tdiv b.minHeight := Int.tdiv_nonneg (by omega) (by omega)
  have hle1 : min (b.maxArea.tdiv b.minHeight) b.maxWidth ≤ b.maxArea.tdiv b.minHeight := Int.min_le_left _ _
  have hle2 : min (b.maxArea.tdiv b.minHeight) b.maxWidth ≤ b.maxWidth := Int.min_le_right _ _
  have hle3 : 0 ≤ min (b.maxArea.tdiv b.minHeight) b.maxWidth := by omega
  generalize min (b.maxArea.tdiv b.minHeight) b.maxWidth = m at *
  have hprod : m * b.minHeight ≤ b.maxArea := by
    have := Int.mul_le_mul_of_nonneg_right hle1 (show (0 : Int) ≤ b.minHeight by omega)
    omega
  obtain ⟨g', best, h1, h2, h3, h4, h5, h6⟩ := searchLoop_spec (b := b) hs hne hb hbw ((b.maxHeight - b.minHeight).toNat + 2)
    { g with width := m, height := b.minHeight } ⟨b.maxArea - 1, m, b.minHeight⟩ ⟨hg.cols, hg.rows, hg.pos⟩
    (by show _ ≤ g.size; omega) hbh hle2 (by show 0 ≤ b.maxArea - 1; omega)
    (by show (b.maxHeight + 1 - b.minHeight).toNat < _; omega)
  have h5 : best.area ≤ max (b.maxArea - 1) (m * b.minHeight) := h5
  simp only [h1, bind, Except.bind]
  by_cases hbest : best.area = b.maxArea - 1
  · rw [if_pos hbest]
    refine ⟨_, _, rfl, ⟨h2.cols, h2.rows, h2.pos⟩, h3, by show 0 < b.minHeight; omega, hle3,
      fun h => (by cases h), fun g1 d1 gw m' e hc hc' hp hlt => ?_⟩
    subst e
    have := h6 g1 d1 gw ⟨hc, hc'⟩ hp
    simp only at this
    omega
  · rw [if_neg hbest]
    rcases h4 with rfl | ⟨k1, k2, k3, k4, W, k5, k6, k7⟩
    · exact absurd rfl hbest
    · refine ⟨_, _, rfl, ⟨h2.cols, h2.rows, h2.pos⟩, h3, k2, by show 0 ≤ best.w; omega, fun _ => ⟨k1, k3, ?_, W, k5, k6, k7⟩,
        fun g1 d1 gw m' e hc hc' hp hlt => ⟨rfl, ?_⟩⟩
      · show best.w * best.h ≤ _
        rw [Int.mul_comm, ← k4]
        omega
      · subst e
        have := h6 g1 d1 gw ⟨hc, hc'⟩ hp
        show best.w * best.h ≤ _
        rw [Int.mul_comm, ← k4]
        exact this

end Pack
end MM
