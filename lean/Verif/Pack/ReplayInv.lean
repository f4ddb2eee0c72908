import Verif.Pack.FinishInv

/-! The rectangle packer always succeeds in a wide grid, and the final packing repeats the best search. -/

namespace MM
namespace Pack

open Spec.Pack

theorem clear_edges {g : Grid} : Edges g.clear [] := by
  intro c hc
  have hc : c ∈ [(⟨0, 0, g.width⟩ : Span)] := hc
  rw [List.mem_singleton] at hc
  subst hc
  exact Or.inl rfl

theorem Edges.alike {g g' : Grid} {P : List Placed} (h : Edges g P) (hA : Alike g g') : Edges g' P := by
  unfold Edges
  rw [hA.cols]
  exact h

/-- The right end of a rectangle is the start of a column, unless the grid ends there. -/
theorem Inv.column {g : Grid} {P : List Placed} (h : Inv g P) {X : Int} (hX : X = 0 ∨ ∃ R ∈ P, R.x + R.w = X)
    (hlt : X < g.width) (h0 : 0 ≤ X) : ∃ c ∈ g.cols.spans, c.lo = X := by
  obtain ⟨c, hc, c1, c2⟩ := h.cols.asc.cover (z := X) h0 (by rw [h.cols.last]; exact hlt)
  refine ⟨c, hc, ?_⟩
  have hb := h.cols.mem hc
  rcases hX with h' | ⟨R, hR, e⟩
  · omega
  · have := h.colEdge R hR c hc
    omega

/-- In a grid that is as wide as all rectangles beside each other, each rectangle finds a place. -/
theorem placeAll_all : ∀ (rs : List Rect) (g : Grid) (P : List Placed) (delta gw X : Int), Inv g P → (∀ r ∈ rs, Small r) →
    g.rows.used ≤ P.length + 1 → g.cols.used ≤ P.length + 1 → P.length + rs.length + 1 ≤ g.size → gw ≤ X → 0 ≤ X →
    (X = 0 ∨ ∃ R ∈ P, R.x + R.w = X) → (∀ R ∈ P, R.x + R.w ≤ X) → X + (rs.map (·.width)).sum ≤ g.width →
    (∀ r ∈ rs, r.height ≤ g.height) →
    ∃ g' delta' gw', g.placeAll delta gw rs = .ok (g', delta', gw', true) ∧ gw' ≤ X + (rs.map (·.width)).sum := by
  intro rs
  induction rs with
  | nil =>
    intro g P delta gw X h _ _ _ _ hgw _ _ _ _ _
    exact ⟨g, delta, gw, rfl, by simpa using hgw⟩
  | cons r rs ih =>
    intro g P delta gw X h hpos hru hcu hsz hgw hX0 hX hXle hsum hht
    have hr := hpos r (by simp)
    have hsum0 : 0 ≤ (rs.map (·.width)).sum := by
      have : ∀ l : List Rect, (∀ r ∈ l, Small r) → 0 ≤ (l.map (·.width)).sum := by
        intro l
        induction l with
        | nil => simp
        | cons a l ih' =>
          intro hl
          have := ih' (fun r hr => hl r (by simp [hr]))
          have := (hl a (by simp)).w
          simp only [List.map_cons, List.sum_cons]
          omega
      exact this rs (fun r hr => hpos r (by simp [hr]))
    simp only [List.map_cons, List.sum_cons] at hsum ⊢
    obtain ⟨g1, d, reg, h1, hI1, hA1, hd1, hd2, hf, hn⟩ := find_spec h hr.w hr.h
    have hw := hr.w
    have hrh := hht r (by simp)
    obtain ⟨c, hc, hcX⟩ := h.column hX (by omega) hX0
    have hgo : CanGo P g.height r.width r.height c.lo := by
      rw [hcX]
      refine ⟨0, ⟨Int.le_refl _, ?_, by omega⟩, by omega, ?_⟩
      · intro Q hQ q
        have := hXle Q hQ
        omega
      · intro Q hQ q
        have := hXle Q hQ
        omega
    simp only [Grid.placeAll, h1, bind, Except.bind]
    cases reg with
    | none =>
      have := hn rfl c hc hgo
      omega
    | some reg =>
      obtain ⟨x, y, F, K⟩ := hf reg rfl
      simp only [List.length_cons] at hsz
      obtain ⟨g2, h2, hI2, s2, w2, y2, u2, v2, -⟩ := split_spec hI1 F (by rw [hA1.rows, hA1.size]; omega)
        (by rw [hA1.cols, hA1.size]; omega)
      rw [hA1.rows] at u2
      rw [hA1.cols] at v2
      have hxX : x ≤ X := by
        by_contra hlt
        exact K.first c hc (by simp only; omega) hgo
      have hce := F.colEnd
      have hwide := K.wide
      have hp := hI2.pos ⟨x, y, r.width, r.height⟩ (by simp)
      simp only at hce hwide hp
      have hgw' : (if gw < reg.colEnd then reg.colEnd else gw) ≤ g1.width := by
        rw [hA1.width]
        split <;> omega
      simp only [hgw', not_true_eq_false, if_false, h2]
      obtain ⟨g3, d3, gw3, k1, k2⟩ := ih g2 (P ++ [⟨x, y, r.width, r.height⟩])
        (if toInt d < delta then toInt d else delta) (if gw < reg.colEnd then reg.colEnd else gw) (max X (x + r.width)) hI2
        (fun r hr => hpos r (by simp [hr])) (by simp only [List.length_append, List.length_singleton]; omega)
        (by simp only [List.length_append, List.length_singleton]; omega)
        (by simp only [List.length_append, List.length_singleton]; rw [s2, hA1.size]; omega)
        (by split <;> omega) (by omega)
        (by
          by_cases hm : x + r.width ≤ X
          · rw [show max X (x + r.width) = X from by omega]
            rcases hX with hX | ⟨R, hR, e⟩
            · exact Or.inl hX
            · exact Or.inr ⟨R, List.mem_append.mpr (Or.inl hR), e⟩
          · rw [show max X (x + r.width) = x + r.width from by omega]
            exact Or.inr ⟨_, List.mem_append.mpr (Or.inr (List.mem_singleton.mpr rfl)), rfl⟩)
        (by
          intro R hR
          rcases List.mem_append.mp hR with hR | hR
          · have := hXle R hR; omega
          · rw [List.mem_singleton] at hR
            subst hR
            simp only
            omega)
        (by rw [w2, hA1.width]; omega)
        (by rw [y2, hA1.height]; exact fun r hr => hht r (by simp [hr]))
      exact ⟨g3, d3, gw3, k1, by omega⟩

/-- The sizes of a rectangle. -/
def Rect.dims (r : Rect) : Int × Int := (r.width, r.height)

/-- Packing rectangles of the same sizes into a box of the width that a search has used puts each in its place. -/
theorem replay : ∀ (rs ts : List Rect) (g g' : Grid) (P : List Placed) (delta gw : Int) (ge : Grid) (de w : Int),
    ts.map Rect.dims = rs.map Rect.dims → Inv g P → Inv g' P → Edges g P → Edges g' P → (∀ r ∈ rs, Small r) →
    g.rows.used ≤ P.length + 1 → g.cols.used ≤ P.length + 1 → P.length + rs.length + 1 ≤ g.size →
    g'.rows.used ≤ P.length + 1 → g'.cols.used ≤ P.length + 1 → g'.size = g.size → g'.height = g.height →
    g'.width ≤ g.width → w ≤ g'.width → 1 ≤ delta → gw ≤ g.width →
    g.placeAll delta gw rs = .ok (ge, de, w, true) →
    ∃ done, g'.packAll ts = .ok done ∧ ∀ r ∈ done, 0 ≤ r.x ∧ 0 ≤ r.y := by
  intro rs
  induction rs with
  | nil =>
    intro ts g g' P delta gw ge de w hd _ _ _ _ _ _ _ _ _ _ _ _ _ _ _ _ _
    have : ts = [] := List.map_eq_nil_iff.mp hd
    subst this
    exact ⟨[], rfl, by simp⟩
  | cons r rs ih =>
    intro ts g g' P delta gw ge de w hdims hI hI' hE hE' hpos hru hcu hsz hru' hcu' hgs hgh hgw hww hdel hgwl hrun
    cases ts with
    | nil => simp at hdims
    | cons t ts =>
    simp only [List.map_cons, List.cons.injEq] at hdims
    obtain ⟨hdt, hdims⟩ := hdims
    have htw : t.width = r.width := congrArg Prod.fst hdt
    have hth : t.height = r.height := congrArg Prod.snd hdt
    have hr := hpos r (by simp)
    simp only [List.length_cons] at hsz
    -- the search
    obtain ⟨g1, d, reg, h1, hI1, hA1, hd1, hd2, hf, -⟩ := find_spec hI hr.w hr.h
    have ht : toInt d = d := toInt_small (by omega) (by have := hr.h'; omega)
    simp only [Grid.placeAll, h1, bind, Except.bind, ht] at hrun
    cases reg with
    | none => cases hrun
    | some reg =>
    obtain ⟨x, y, F, K⟩ := hf reg rfl
    obtain ⟨g2, h2, hI2, s2, w2, y2, u2, v2, hE2⟩ := split_spec hI1 F (by rw [hA1.rows, hA1.size]; omega)
      (by rw [hA1.cols, hA1.size]; omega)
    rw [hA1.rows] at u2
    rw [hA1.cols] at v2
    have hce := F.colEnd
    have hwide := K.wide
    have hp := hI2.pos ⟨x, y, r.width, r.height⟩ (by simp)
    simp only at hce hwide hp
    have hgw' : (if gw < reg.colEnd then reg.colEnd else gw) ≤ g1.width := by
      rw [hA1.width]
      split <;> omega
    simp only [hgw', not_true_eq_false, if_false, h2] at hrun
    have hnew : 1 ≤ (if d < delta then d else delta) := by split <;> omega
    have hP : (P ++ [(⟨x, y, r.width, r.height⟩ : Placed)]).length = P.length + 1 := by simp
    -- the width used covers this rectangle
    obtain ⟨g3, d3, gw3, all, k1, k2, k3, k4, k5, k6, k7, k8, k9⟩ := placeAll_spec rs g2 (P ++ [⟨x, y, r.width, r.height⟩])
      (if d < delta then d else delta) (if gw < reg.colEnd then reg.colEnd else gw) hI2
      (fun r hr => hpos r (by simp [hr])) (by omega) (by omega) (by rw [hP, s2, hA1.size]; omega) hnew
      (by rw [w2]; exact hgw')
    have hwe : gw3 = w := by
      rw [k1] at hrun
      cases hrun
      rfl
    have hxw : x + r.width ≤ w := by
      rw [← hwe]
      refine Int.le_trans ?_ k7
      split <;> omega
    -- the packing
    obtain ⟨p1, e, preg, q1, qI1, qA1, -, -, qf, qn⟩ := find_spec hI' (w := t.width) (h := t.height)
      (by rw [htw]; exact hr.w) (by rw [hth]; exact hr.h)
    have hcX : ∃ c ∈ g'.cols.spans, c.lo = x := by
      obtain ⟨c, hc, e⟩ := K.start
      simp only at e
      refine hI'.column ?_ (by have := hr.w; omega) (by omega)
      rcases hE c hc with h | ⟨R, hR, h⟩
      · exact Or.inl (by omega)
      · exact Or.inr ⟨R, hR, by omega⟩
    obtain ⟨c, hc, hcx⟩ := hcX
    have hgo : CanGo P g'.height t.width t.height c.lo := by
      rw [hcx, hgh, htw, hth]
      exact ⟨y, K.low, K.high, K.row⟩
    simp only [Grid.packAll, q1, bind, Except.bind]
    cases preg with
    | none =>
      have := qn rfl c hc hgo
      omega
    | some preg =>
    obtain ⟨x', y', F', K'⟩ := qf preg rfl
    have hxx : x' = x := by
      have h1 : ¬ x < x' := fun hlt => K'.first c hc (by simp only; omega) hgo
      have h2 : ¬ x' < x := by
        intro hlt
        obtain ⟨c', hc', e'⟩ := K'.start
        simp only at e'
        have : ∃ c ∈ g.cols.spans, c.lo = x' := by
          have hw' := K'.wide
          have hp' := (Fits.apart qI1 F')
          simp only at hw'
          have h0 := hI'.cols.mem hc'
          refine hI.column ?_ (by have := hr.w; omega) (by omega)
          rcases hE' c' hc' with h | ⟨R, hR, h⟩
          · exact Or.inl (by omega)
          · exact Or.inr ⟨R, hR, by omega⟩
        obtain ⟨c2, hc2, e2⟩ := this
        refine K.first c2 hc2 (by simp only; omega) ?_
        have l1 := K'.low
        have l2 := K'.high
        have l3 := K'.row
        rw [htw, hth] at l3
        rw [hth] at l1 l2
        rw [e2]
        exact ⟨y', l1, by rw [← hgh]; exact l2, l3⟩
      omega
    subst hxx
    have hyy : y' = y := by
      have l1 := K'.low
      rw [hth] at l1
      exact l1.unique K.low
    subst hyy
    rw [htw, hth] at F'
    obtain ⟨p2, z2, zI2, zs2, zw2, zy2, zu2, zv2, zE2⟩ := split_spec qI1 F' (by rw [qA1.rows, qA1.size]; omega)
      (by rw [qA1.cols, qA1.size]; omega)
    rw [qA1.rows] at zu2
    rw [qA1.cols] at zv2
    obtain ⟨done, m1, m2⟩ := ih ts g2 p2 (P ++ [⟨x', y', r.width, r.height⟩]) _ _ ge de w hdims hI2 zI2
      (hE2 (hE.alike hA1)) (zE2 (hE'.alike qA1)) (fun r hr => hpos r (by simp [hr])) (by omega) (by omega)
      (by rw [hP, s2, hA1.size]; omega) (by omega) (by omega) (by rw [zs2, qA1.size, s2, hA1.size]; exact hgs)
      (by rw [zy2, qA1.height, y2, hA1.height]; exact hgh) (by rw [zw2, qA1.width, w2, hA1.width]; exact hgw)
      (by rw [zw2, qA1.width]; exact hww) hnew (by rw [w2]; exact hgw') hrun
    simp only [z2, m1]
    refine ⟨_, rfl, ?_⟩
    intro s hs
    rcases List.mem_cons.mp hs with rfl | hs
    · have hx : p1.cols.startPos preg.colStart = x' := by
        obtain ⟨c, hc, e1, e2⟩ := F'.colStart
        rw [← e1, qI1.cols.startPos hc]
        exact e2
      have hy : p1.rows.startPos preg.rowStart = y' := by
        obtain ⟨c, hc, e1, e2⟩ := F'.rowStart
        rw [← e1, qI1.rows.startPos hc]
        exact e2
      simp only [hx, hy]
      omega
    · exact m2 s hs

/-- The final packing finds all places if it follows a search over rectangles of the same sizes. -/
theorem replay_ran {rs ts : List Rect} {n : Nat} {W w h : Int} {g : Grid} (hd : ts.map Rect.dims = rs.map Rect.dims)
    (hR : Ran n rs W w h) (hs : ∀ r ∈ rs, Small r) (hw : 0 < w) (hh : 0 < h) (hwW : w ≤ W) (hn : n = rs.length + 1)
    (hg : Sane g) (hgn : g.size = n) :
    ∃ done, ({ g with width := w, height := h } : Grid).clear.packAll ts = .ok done ∧ ∀ r ∈ done, 0 ≤ r.x ∧ 0 ≤ r.y := by
  obtain ⟨g0, d, g1, d1, hS, hsz, hgw, hgh, hW, hd1, hrun⟩ := hR
  have hI := clear_inv hS (by omega) (by omega)
  have hI' := clear_inv (g := { g with width := w, height := h }) ⟨hg.cols, hg.rows, hg.pos⟩ hw hh
  refine replay rs ts _ _ [] d 0 g1 d1 w hd hI hI' clear_edges clear_edges hs (by show 1 ≤ _; simp) (by show 1 ≤ _; simp)
    (by show 0 + rs.length + 1 ≤ g0.size; omega) (by show 1 ≤ _; simp) (by show 1 ≤ _; simp) (by show g.size = g0.size; omega)
    hgh.symm (by show w ≤ g0.width; omega) (Int.le_refl _) hd1 (by show (0 : Int) ≤ g0.width; omega) hrun

end Pack
end MM
