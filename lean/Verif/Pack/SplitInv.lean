import Verif.Pack.FindInv

/-! What splitting the grid at a region does. -/

namespace MM
namespace Pack

open Spec.Pack

/-- The cut of a row keeps the invariant and the region; afterwards the region ends with a row. -/
theorem cutRow_spec {g : Grid} {P : List Placed} {N : Placed} {reg : Region} (h : Inv g P) (f : Fits g P N reg)
    (hz : g.rows.used < g.size) :
    ∃ g', g.cutRow reg.row reg.rowEnd = .ok g' ∧ Inv g' P ∧ Fits g' P N reg ∧ g'.cols = g.cols ∧ g'.size = g.size ∧
      g'.width = g.width ∧ g'.height = g.height ∧ g'.rows.used ≤ g.rows.used + 1 ∧
      ∃ r ∈ g'.rows.spans, r.index = reg.row ∧ r.hi = N.y + N.h := by
  obtain ⟨rr, hrr, hrri, hrrl, hrrh⟩ := f.row
  have hend : g.rows.endOf reg.row = .ok rr.hi := by rw [← hrri]; exact h.rows.endOf hrr
  simp only [Grid.cutRow, hend, bind, Except.bind]
  rw [f.rowEnd]
  by_cases hlt : N.y + N.h < rr.hi
  · rw [if_pos hlt]
    obtain ⟨l, hl, hok, hsz, hus, hsp⟩ := h.rows.cut hrr hrrl hlt (by rw [h.rowSize]; exact hz)
    rw [← hrri]
    simp only [hl]
    -- where a row comes from
    have horig : ∀ r ∈ l.spans, ∃ o ∈ g.rows.spans, o.lo ≤ r.lo ∧ r.hi ≤ o.hi ∧
        (∀ j, j < g.cols.used → (if r.index = g.rows.used ∧ j < g.cols.used then g.jump rr.index j else g.jump r.index j) =
          g.jump o.index j) ∧ (r.lo = o.lo ∨ (o = rr ∧ r.lo = N.y + N.h)) := by
      intro r hr
      rcases (hsp r).mp hr with rfl | rfl | ⟨hr, hne⟩
      · have := h.rows.index_lt hrr
        exact ⟨rr, hrr, Int.le_refl _, by simp only; omega, fun j _ => by rw [if_neg (by simp only; omega)], Or.inl rfl⟩
      · exact ⟨rr, hrr, by simp only; omega, Int.le_refl _, fun j hj => by rw [if_pos ⟨rfl, hj⟩], Or.inr ⟨rfl, rfl⟩⟩
      · have := h.rows.index_lt hr
        exact ⟨r, hr, Int.le_refl _, Int.le_refl _, fun j _ => by rw [if_neg (by omega)], Or.inl rfl⟩
    have hkeep : ∀ o ∈ g.rows.spans, ∃ r ∈ l.spans, r.index = o.index ∧ r.lo = o.lo := by
      intro o ho
      by_cases e : o = rr
      · exact ⟨⟨rr.index, rr.lo, N.y + N.h⟩, (hsp _).mpr (Or.inl rfl), by rw [e], by rw [e]⟩
      · exact ⟨o, (hsp _).mpr (Or.inr (Or.inr ⟨ho, e⟩)), rfl, rfl⟩
    refine ⟨_, rfl, ?_, ?_, rfl, rfl, rfl, rfl, ?_, ?_⟩
    · refine ⟨h.cols, hok, h.colSize, hsz.trans h.rowSize, h.colUsed, ?_, h.pos, h.colEdge, ?_, h.apart, h.support, ?_, ?_,
        ?_, ?_, ?_, ?_⟩
      · show l.used ≤ g.size
        omega
      · intro R hR r hr
        obtain ⟨o, ho, o1, o2, -, o4⟩ := horig r hr
        have e := h.rowEdge R hR o ho
        have ob := h.rows.mem ho
        have rb := hok.mem hr
        constructor
        · omega
        · omega
      · intro r hr c hc
        obtain ⟨o, ho, -, -, o3, -⟩ := horig r hr
        obtain ⟨t, ht⟩ := h.init o ho c hc
        exact ⟨t, (o3 c.index (h.cols.index_lt hc)).trans ht⟩
      · intro r hr c hc R hR h1 h2 h3 he
        obtain ⟨o, ho, o1, o2, o3, o4⟩ := horig r hr
        have he := (o3 c.index (h.cols.index_lt hc)).symm.trans he
        have e := h.rowEdge R hR o ho
        have ob := h.rows.mem ho
        have rb := hok.mem hr
        have h2 : R.y ≤ r.lo ∧ r.hi ≤ R.y + R.h := h2
        refine h.marks o ho c hc R hR h1 ⟨by omega, by omega⟩ ?_ he
        rcases h3 with h3 | h3
        · exact Or.inl h3
        · exact Or.inr (by omega)
      · intro r hr c hc he
        obtain ⟨o, ho, o1, o2, o3, o4⟩ := horig r hr
        exact h.full o ho c hc ((o3 c.index (h.cols.index_lt hc)).symm.trans he)
      · intro r hr c hc t he
        obtain ⟨o, ho, o1, o2, o3, o4⟩ := horig r hr
        obtain ⟨s, hs, s1, s2, Q, hQ, q1, q2⟩ := h.target o ho c hc t ((o3 c.index (h.cols.index_lt hc)).symm.trans he)
        obtain ⟨s', hs', e1, e2⟩ := hkeep s hs
        refine ⟨s', hs', e1.trans s1, ?_, Q, hQ, q1, by omega⟩
        have rb := hok.mem hr
        have ob := h.rows.mem ho
        rcases h.rows.apart ho hs with e | e | e
        · subst e; omega
        · omega
        · have := h.rows.mem hs; omega
      · intro r hr c hc he
        obtain ⟨o, ho, o1, o2, o3, o4⟩ := horig r hr
        exact (h.fullSolid o ho c hc ((o3 c.index (h.cols.index_lt hc)).symm.trans he)).sub o1 (Int.le_refl _)
      · intro r hr c hc s' hs' he
        obtain ⟨o, ho, o1, o2, o3, o4⟩ := horig r hr
        have he := (o3 c.index (h.cols.index_lt hc)).symm.trans he
        obtain ⟨s, hs, s1, -⟩ := h.target o ho c hc s'.index he
        obtain ⟨s'', hs'', e1, e2⟩ := hkeep s hs
        have : s'' = s' := hok.inj hs'' hs' (e1.trans s1)
        rw [← s1] at he
        refine (h.rowSolid o ho c hc s hs he).sub o1 (Int.le_of_eq ?_)
        rw [← e2, this]
    · refine ⟨f.hw, f.hh, f.rowEnd, f.colEnd, ?_, f.colStart, ?_, f.col, ?_, ?_, f.clean⟩
      · obtain ⟨r, hr, e1, e2⟩ := f.rowStart
        obtain ⟨r', hr', e3, e4⟩ := hkeep r hr
        exact ⟨r', hr', e3.trans e1, e4.trans e2⟩
      · exact ⟨⟨rr.index, rr.lo, N.y + N.h⟩, (hsp _).mpr (Or.inl rfl), hrri, hrrl, Int.le_refl _⟩
      · intro r hr h1 h2
        obtain ⟨o, ho, o1, o2, o3, o4⟩ := horig r hr
        obtain ⟨c, hc, hci, -⟩ := f.colStart
        have := h.cols.index_lt hc
        refine (o3 reg.colStart (by omega)).trans (f.left o ho ?_ (by omega))
        omega
      · intro c hc h1 h2
        obtain ⟨r, hr, e1, e2⟩ := f.rowStart
        have := h.rows.index_lt hr
        show (if reg.rowStart = g.rows.used ∧ c.index < g.cols.used then _ else g.jump reg.rowStart c.index) = _
        rw [if_neg (by omega)]
        exact f.top c hc h1 h2
    · show l.used ≤ _
      omega
    · exact ⟨⟨rr.index, rr.lo, N.y + N.h⟩, (hsp _).mpr (Or.inl rfl), rfl, rfl⟩
  · rw [if_neg hlt]
    exact ⟨g, rfl, h, f, rfl, rfl, rfl, rfl, by omega, rr, hrr, hrri, by omega⟩

/-- The cut of a column keeps the invariant and the region; afterwards the region ends with a column. -/
theorem cutCol_spec {g : Grid} {P : List Placed} {N : Placed} {reg : Region} (h : Inv g P) (f : Fits g P N reg)
    (hz : g.cols.used < g.size) :
    ∃ g', g.cutCol reg.col reg.colEnd = .ok g' ∧ Inv g' P ∧ Fits g' P N reg ∧ g'.rows = g.rows ∧ g'.size = g.size ∧
      g'.width = g.width ∧ g'.height = g.height ∧ g'.cols.used ≤ g.cols.used + 1 ∧
      (∃ c ∈ g'.cols.spans, c.index = reg.col ∧ c.hi = N.x + N.w) ∧
      ∀ c ∈ g'.cols.spans, (∃ o ∈ g.cols.spans, o.lo = c.lo) ∨ c.lo = N.x + N.w := by
  obtain ⟨cc, hcc, hcci, hccl, hcch⟩ := f.col
  have hend : g.cols.endOf reg.col = .ok cc.hi := by rw [← hcci]; exact h.cols.endOf hcc
  simp only [Grid.cutCol, hend, bind, Except.bind]
  rw [f.colEnd]
  by_cases hlt : N.x + N.w < cc.hi
  · rw [if_pos hlt]
    obtain ⟨l, hl, hok, hsz, hus, hsp⟩ := h.cols.cut hcc hccl hlt (by rw [h.colSize]; exact hz)
    rw [← hcci]
    simp only [hl]
    have horig : ∀ c ∈ l.spans, ∃ o ∈ g.cols.spans, o.lo ≤ c.lo ∧ c.hi ≤ o.hi ∧
        (∀ j, j < g.rows.used → (if c.index = g.cols.used ∧ j < g.rows.used then g.jump j cc.index else g.jump j c.index) =
          g.jump j o.index) ∧ (c.lo = o.lo ∨ (o = cc ∧ c.lo = N.x + N.w)) := by
      intro c hc
      rcases (hsp c).mp hc with rfl | rfl | ⟨hc, hne⟩
      · have := h.cols.index_lt hcc
        exact ⟨cc, hcc, Int.le_refl _, by simp only; omega, fun j _ => by rw [if_neg (by simp only; omega)], Or.inl rfl⟩
      · exact ⟨cc, hcc, by simp only; omega, Int.le_refl _, fun j hj => by rw [if_pos ⟨rfl, hj⟩], Or.inr ⟨rfl, rfl⟩⟩
      · have := h.cols.index_lt hc
        exact ⟨c, hc, Int.le_refl _, Int.le_refl _, fun j _ => by rw [if_neg (by omega)], Or.inl rfl⟩
    have hkeep : ∀ o ∈ g.cols.spans, ∃ c ∈ l.spans, c.index = o.index ∧ c.lo = o.lo := by
      intro o ho
      by_cases e : o = cc
      · exact ⟨⟨cc.index, cc.lo, N.x + N.w⟩, (hsp _).mpr (Or.inl rfl), by rw [e], by rw [e]⟩
      · exact ⟨o, (hsp _).mpr (Or.inr (Or.inr ⟨ho, e⟩)), rfl, rfl⟩
    refine ⟨_, rfl, ?_, ?_, rfl, rfl, rfl, rfl, ?_, ?_, ?_⟩
    · refine ⟨hok, h.rows, hsz.trans h.colSize, h.rowSize, ?_, h.rowUsed, h.pos, ?_, h.rowEdge, h.apart, h.support, ?_, ?_,
        ?_, ?_, ?_, ?_⟩
      · show l.used ≤ g.size
        omega
      · intro R hR c hc
        obtain ⟨o, ho, o1, o2, -, o4⟩ := horig c hc
        have e := h.colEdge R hR o ho
        have ob := h.cols.mem ho
        have cb := hok.mem hc
        constructor
        · omega
        · omega
      · intro r hr c hc
        obtain ⟨o, ho, -, -, o3, -⟩ := horig c hc
        obtain ⟨t, ht⟩ := h.init r hr o ho
        exact ⟨t, (o3 r.index (h.rows.index_lt hr)).trans ht⟩
      · intro r hr c hc R hR h1 h2 h3 he
        obtain ⟨o, ho, o1, o2, o3, o4⟩ := horig c hc
        have he := (o3 r.index (h.rows.index_lt hr)).symm.trans he
        have e := h.colEdge R hR o ho
        have ob := h.cols.mem ho
        have cb := hok.mem hc
        have h1 : R.x ≤ c.lo ∧ c.hi ≤ R.x + R.w := h1
        refine h.marks r hr o ho R hR ⟨by omega, by omega⟩ h2 ?_ he
        rcases h3 with h3 | h3
        · exact Or.inl (by omega)
        · exact Or.inr h3
      · intro r hr c hc he
        obtain ⟨o, ho, o1, o2, o3, o4⟩ := horig c hc
        obtain ⟨Q, hQ, q1, q2⟩ := h.full r hr o ho ((o3 r.index (h.rows.index_lt hr)).symm.trans he)
        have q1 : Q.x ≤ o.lo ∧ o.hi ≤ Q.x + Q.w := q1
        exact ⟨Q, hQ, ⟨by omega, by omega⟩, q2⟩
      · intro r hr c hc t he
        obtain ⟨o, ho, o1, o2, o3, o4⟩ := horig c hc
        obtain ⟨s, hs, s1, s2, Q, hQ, q1, q2⟩ := h.target r hr o ho t ((o3 r.index (h.rows.index_lt hr)).symm.trans he)
        have q1 : Q.x ≤ o.lo ∧ o.hi ≤ Q.x + Q.w := q1
        exact ⟨s, hs, s1, s2, Q, hQ, ⟨by omega, by omega⟩, q2⟩
      · intro r hr c hc he
        obtain ⟨o, ho, o1, o2, o3, o4⟩ := horig c hc
        exact (h.fullSolid r hr o ho ((o3 r.index (h.rows.index_lt hr)).symm.trans he)).mono (fun _ h => h) o1 o2
      · intro r hr c hc s hs he
        obtain ⟨o, ho, o1, o2, o3, o4⟩ := horig c hc
        exact (h.rowSolid r hr o ho s hs ((o3 r.index (h.rows.index_lt hr)).symm.trans he)).mono (fun _ h => h) o1 o2
    · refine ⟨f.hw, f.hh, f.rowEnd, f.colEnd, f.rowStart, ?_, f.row, ?_, ?_, ?_, f.clean⟩
      · obtain ⟨c, hc, e1, e2⟩ := f.colStart
        obtain ⟨c', hc', e3, e4⟩ := hkeep c hc
        exact ⟨c', hc', e3.trans e1, e4.trans e2⟩
      · exact ⟨⟨cc.index, cc.lo, N.x + N.w⟩, (hsp _).mpr (Or.inl rfl), hcci, hccl, Int.le_refl _⟩
      · intro r hr h1 h2
        obtain ⟨c, hc, e1, e2⟩ := f.colStart
        have := h.cols.index_lt hc
        show (if reg.colStart = g.cols.used ∧ r.index < g.rows.used then _ else g.jump r.index reg.colStart) = _
        rw [if_neg (by omega)]
        exact f.left r hr h1 h2
      · intro c hc h1 h2
        obtain ⟨o, ho, o1, o2, o3, o4⟩ := horig c hc
        obtain ⟨r, hr, hri, -⟩ := f.rowStart
        have := h.rows.index_lt hr
        refine (o3 reg.rowStart (by omega)).trans (f.top o ho ?_ (by omega))
        omega
    · show l.used ≤ _
      omega
    · exact ⟨⟨cc.index, cc.lo, N.x + N.w⟩, (hsp _).mpr (Or.inl rfl), rfl, rfl⟩
    · intro c hc
      obtain ⟨o, ho, o1, o2, o3, o4 | o4⟩ := horig c hc
      · exact Or.inl ⟨o, ho, o4.symm⟩
      · exact Or.inr o4.2
  · rw [if_neg hlt]
    exact ⟨g, rfl, h, f, rfl, rfl, rfl, rfl, by omega, ⟨cc, hcc, hcci, by omega⟩, fun c hc => Or.inl ⟨c, hc, rfl⟩⟩

/-- What marking the rows of a column does. -/
theorem markRows_spec {t : Jump} {col last : Nat} {p e : Int} : ∀ (rs : List Cell) (g : Grid), Ascend p rs →
    (rs.map (·.index)).Nodup → col < g.size → (∀ r ∈ rs, r.index < g.size) →
    (∀ r ∈ spans p rs, r.lo < e → g.jump r.index col = some .free) → (∃ r ∈ spans p rs, r.index = last ∧ r.hi = e) →
    ∃ g', g.markRows col last t rs = .ok g' ∧ Alike g g' ∧
      (∀ r ∈ spans p rs, r.lo < e → g'.jump r.index col = some t) ∧
      ∀ i j, (j ≠ col ∨ ∀ r ∈ spans p rs, r.lo < e → r.index ≠ i) → g'.jump i j = g.jump i j := by
  intro rs
  induction rs generalizing p with
  | nil => intro g _ _ _ _ _ h; obtain ⟨r, hr, -⟩ := h; cases hr
  | cons r rs ih =>
    intro g hasc hnd hcol hidx hfree hlast
    obtain ⟨l, hl, hli, hlh⟩ := hlast
    have hlb := hasc.mem hl
    have hple : p < e := by omega
    have hr := hfree ⟨r.index, p, r.endPos⟩ (by simp [spans]) hple
    simp only at hr
    have hread : g.read r.index col = .ok .free := by
      rw [Grid.read, if_pos ⟨hidx r (by simp), hcol⟩, hr]
    simp only [Grid.markRows, hread, bind, Except.bind, ne_eq, not_true_eq_false, if_false]
    simp only [List.map_cons, List.nodup_cons] at hnd
    have hni : ∀ s ∈ spans r.endPos rs, s.index ≠ r.index := by
      intro s hs e
      apply hnd.1
      rw [← spans_index r.endPos, ← e]
      exact List.mem_map_of_mem hs
    by_cases hlx : r.index = last
    · rw [if_pos hlx]
      have hl' : r.endPos = e := by
        simp only [spans, List.mem_cons] at hl
        rcases hl with rfl | hl
        · exact hlh
        · exact absurd (hli.trans hlx.symm) (hni l hl)
      refine ⟨_, rfl, ⟨rfl, rfl, rfl, rfl, rfl⟩, ?_, ?_⟩
      · intro s hs hse
        simp only [spans, List.mem_cons] at hs
        rcases hs with rfl | hs
        · show (if r.index = r.index ∧ col = col then some t else _) = _
          simp
        · have := hasc.2.mem hs; omega
      · intro i j hij
        show (if i = r.index ∧ j = col then some t else g.jump i j) = _
        rw [if_neg]
        rintro ⟨rfl, rfl⟩
        rcases hij with h | h
        · exact h rfl
        · exact h ⟨r.index, p, r.endPos⟩ (by simp [spans]) hple rfl
    · rw [if_neg hlx]
      have hl' : l ∈ spans r.endPos rs := by
        simp only [spans, List.mem_cons] at hl
        rcases hl with rfl | hl
        · exact absurd hli hlx
        · exact hl
      obtain ⟨g', h1, h2, h3, h4⟩ := ih (p := r.endPos) (g.write r.index col t) hasc.2 hnd.2 hcol
        (fun r hr => hidx r (by simp [hr])) (by
          intro s hs hse
          show (if s.index = r.index ∧ col = col then some t else g.jump s.index col) = _
          rw [if_neg (fun h => hni s hs h.1)]
          exact hfree s (by simp [spans, hs]) hse) ⟨l, hl', hli, hlh⟩
      refine ⟨g', h1, (⟨rfl, rfl, rfl, rfl, rfl⟩ : Alike g (g.write r.index col t)).trans h2, ?_, ?_⟩
      · intro s hs hse
        simp only [spans, List.mem_cons] at hs
        rcases hs with rfl | hs
        · rw [h4 _ _ (Or.inr (fun s hs _ => hni s hs))]
          show (if r.index = r.index ∧ col = col then some t else _) = _
          simp
        · exact h3 s hs hse
      · intro i j hij
        rw [h4 i j (hij.imp_right (fun h s hs => h s (by simp [spans, hs])))]
        show (if i = r.index ∧ j = col then some t else g.jump i j) = _
        rw [if_neg]
        rintro ⟨rfl, rfl⟩
        rcases hij with h | h
        · exact h rfl
        · exact h ⟨r.index, p, r.endPos⟩ (by simp [spans]) hple rfl

/-- What marking the columns of a row does. -/
theorem markCols_spec {t : Jump} {row last : Nat} {p e : Int} : ∀ (cs : List Cell) (g : Grid), Ascend p cs →
    (cs.map (·.index)).Nodup → row < g.size → (∀ c ∈ cs, c.index < g.size) →
    (∀ c ∈ spans p cs, c.lo < e → g.jump row c.index = some .free) → (∃ c ∈ spans p cs, c.index = last ∧ c.hi = e) →
    ∃ g', g.markCols row last t cs = .ok g' ∧ Alike g g' ∧
      (∀ c ∈ spans p cs, c.lo < e → g'.jump row c.index = some t) ∧
      ∀ i j, (i ≠ row ∨ ∀ c ∈ spans p cs, c.lo < e → c.index ≠ j) → g'.jump i j = g.jump i j := by
  intro cs
  induction cs generalizing p with
  | nil => intro g _ _ _ _ _ h; obtain ⟨r, hr, -⟩ := h; cases hr
  | cons r rs ih =>
    intro g hasc hnd hcol hidx hfree hlast
    obtain ⟨l, hl, hli, hlh⟩ := hlast
    have hlb := hasc.mem hl
    have hple : p < e := by omega
    have hr := hfree ⟨r.index, p, r.endPos⟩ (by simp [spans]) hple
    simp only at hr
    have hread : g.read row r.index = .ok .free := by
      rw [Grid.read, if_pos ⟨hcol, hidx r (by simp)⟩, hr]
    simp only [Grid.markCols, hread, bind, Except.bind, ne_eq, not_true_eq_false, if_false]
    simp only [List.map_cons, List.nodup_cons] at hnd
    have hni : ∀ s ∈ spans r.endPos rs, s.index ≠ r.index := by
      intro s hs e
      apply hnd.1
      rw [← spans_index r.endPos, ← e]
      exact List.mem_map_of_mem hs
    by_cases hlx : r.index = last
    · rw [if_pos hlx]
      have hl' : r.endPos = e := by
        simp only [spans, List.mem_cons] at hl
        rcases hl with rfl | hl
        · exact hlh
        · exact absurd (hli.trans hlx.symm) (hni l hl)
      refine ⟨_, rfl, ⟨rfl, rfl, rfl, rfl, rfl⟩, ?_, ?_⟩
      · intro s hs hse
        simp only [spans, List.mem_cons] at hs
        rcases hs with rfl | hs
        · show (if row = row ∧ r.index = r.index then some t else _) = _
          simp
        · have := hasc.2.mem hs; omega
      · intro i j hij
        show (if i = row ∧ j = r.index then some t else g.jump i j) = _
        rw [if_neg]
        rintro ⟨rfl, rfl⟩
        rcases hij with h | h
        · exact h rfl
        · exact h ⟨r.index, p, r.endPos⟩ (by simp [spans]) hple rfl
    · rw [if_neg hlx]
      have hl' : l ∈ spans r.endPos rs := by
        simp only [spans, List.mem_cons] at hl
        rcases hl with rfl | hl
        · exact absurd hli hlx
        · exact hl
      obtain ⟨g', h1, h2, h3, h4⟩ := ih (p := r.endPos) (g.write row r.index t) hasc.2 hnd.2 hcol
        (fun r hr => hidx r (by simp [hr])) (by
          intro s hs hse
          show (if row = row ∧ s.index = r.index then some t else g.jump row s.index) = _
          rw [if_neg (fun h => hni s hs h.2)]
          exact hfree s (by simp [spans, hs]) hse) ⟨l, hl', hli, hlh⟩
      refine ⟨g', h1, (⟨rfl, rfl, rfl, rfl, rfl⟩ : Alike g (g.write row r.index t)).trans h2, ?_, ?_⟩
      · intro s hs hse
        simp only [spans, List.mem_cons] at hs
        rcases hs with rfl | hs
        · rw [h4 _ _ (Or.inr (fun s hs _ => hni s hs))]
          show (if row = row ∧ r.index = r.index then some t else _) = _
          simp
        · exact h3 s hs hse
      · intro i j hij
        rw [h4 i j (hij.imp_right (fun h s hs => h s (by simp [spans, hs])))]
        show (if i = row ∧ j = r.index then some t else g.jump i j) = _
        rw [if_neg]
        rintro ⟨rfl, rfl⟩
        rcases hij with h | h
        · exact h rfl
        · exact h ⟨r.index, p, r.endPos⟩ (by simp [spans]) hple rfl

/-- A cell that starts no earlier than a tail of the list is in that tail. -/
theorem mem_suffix {p : Int} {pre post : List Cell} (h : Ascend p (pre ++ post)) {s : Span} (hs : s ∈ spans p (pre ++ post))
    (hl : lastEnd p pre ≤ s.lo) : s ∈ spans (lastEnd p pre) post := by
  rw [spans_append, List.mem_append] at hs
  rw [Ascend_append] at h
  rcases hs with hs | hs
  · have := h.1.mem hs
    omega
  · exact hs

/-- `grid_split` records the rectangle. -/
theorem split_spec {g : Grid} {P : List Placed} {N : Placed} {reg : Region} (h : Inv g P) (f : Fits g P N reg)
    (hzr : g.rows.used < g.size) (hzc : g.cols.used < g.size) :
    ∃ g', g.split reg = .ok g' ∧ Inv g' (P ++ [N]) ∧ g'.size = g.size ∧ g'.width = g.width ∧ g'.height = g.height ∧
      g'.rows.used ≤ g.rows.used + 1 ∧ g'.cols.used ≤ g.cols.used + 1 ∧ (Edges g P → Edges g' (P ++ [N])) := by
  have hw := f.hw
  have hh := f.hh
  -- the assertions
  have hend1 : ∃ e, g.rows.endOf reg.row = .ok e ∧ reg.rowEnd ≤ e := by
    obtain ⟨r, hr, e, -, h2⟩ := f.row
    exact ⟨r.hi, by rw [← e]; exact h.rows.endOf hr, by rw [f.rowEnd]; exact h2⟩
  have hend2 : ∃ e, g.cols.endOf reg.col = .ok e ∧ reg.colEnd ≤ e := by
    obtain ⟨r, hr, e, -, h2⟩ := f.col
    exact ⟨r.hi, by rw [← e]; exact h.cols.endOf hr, by rw [f.colEnd]; exact h2⟩
  obtain ⟨e1, he1, hle1⟩ := hend1
  obtain ⟨e2, he2, hle2⟩ := hend2
  obtain ⟨g1, hg1, hI1, hF1, hc1, hs1, hw1, hh1, hu1, rr, hrr, hrri, hrrh⟩ := cutRow_spec h f hzr
  obtain ⟨g2, hg2, hI2, hF2, hr2, hs2, hw2, hh2, hu2, ⟨cc, hcc, hcci, hcch⟩, hed⟩ := cutCol_spec hI1 hF1 (by rw [hc1, hs1]; exact hzc)
  rw [← hr2] at hrr
  simp only [Grid.split, he1, he2, hle1, hle2, hg1, hg2, bind, Except.bind, not_true_eq_false, if_false]
  -- the jump target
  have htgt : ∃ t, g2.target reg.row = .ok t ∧ t ≠ .free ∧ (t = .full → N.y + N.h = g2.height) ∧
      ∀ i, t = .row i → ∃ s ∈ g2.rows.spans, s.index = i ∧ s.lo = N.y + N.h := by
    obtain ⟨pre, post, e, e'⟩ := spans_split hrr
    have hn := hI2.rows.nodup
    rw [e] at hn
    have hcf : cellsFrom g2.rows.cells reg.row = ⟨rr.hi, rr.index⟩ :: post := by
      rw [← hrri, e]
      exact cellsFrom_append (c := ⟨rr.hi, rr.index⟩) hn
    cases post with
    | nil =>
      have hl := hI2.rows.last
      rw [e, lastEnd_append] at hl
      have hl : rr.hi = g2.height := hl
      refine ⟨.full, ?_, by simp, fun _ => by omega, fun i hi => by cases hi⟩
      simp only [Grid.target, hcf, hl, if_true]
    | cons n ns =>
      refine ⟨.row n.index, by simp only [Grid.target, hcf], by simp, fun hi => (by cases hi), fun i hi => ?_⟩
      cases hi
      refine ⟨⟨n.index, rr.hi, n.endPos⟩, ?_, rfl, hrrh⟩
      rw [Link.spans, e, spans_append]
      simp [spans]
  obtain ⟨t, ht, htf, htfull, htrow⟩ := htgt
  obtain ⟨rs, hrs, hrsi, hrsl⟩ := hF2.rowStart
  obtain ⟨cs, hcs, hcsi, hcsl⟩ := hF2.colStart
  have rsb := hI2.rows.mem hrs
  have csb := hI2.cols.mem hcs
  have rrb := hI2.rows.mem hrr
  have ccb := hI2.cols.mem hcc
  have hru := hI2.rowUsed
  have hcu := hI2.colUsed
  -- the rows from the start on
  obtain ⟨rpre, rpost, re, rlo⟩ := spans_split hrs
  have hrn := hI2.rows.nodup
  have hra := hI2.rows.asc
  rw [re] at hrn hra
  have hrcf : cellsFrom g2.rows.cells reg.rowStart = ⟨rs.hi, rs.index⟩ :: rpost := by
    rw [← hrsi, re]
    exact cellsFrom_append (c := ⟨rs.hi, rs.index⟩) hrn
  have hrmem : ∀ s ∈ g2.rows.spans, N.y ≤ s.lo → s ∈ spans N.y (⟨rs.hi, rs.index⟩ :: rpost) := by
    intro s hs hl
    rw [Link.spans, re] at hs
    have := mem_suffix hra hs (by omega)
    rwa [← rlo, hrsl] at this
  have hrmem' : ∀ s ∈ spans N.y (⟨rs.hi, rs.index⟩ :: rpost), s ∈ g2.rows.spans ∧ N.y ≤ s.lo := by
    intro s hs
    rw [Ascend_append, ← rlo, hrsl] at hra
    refine ⟨?_, (hra.2.mem hs).1⟩
    rw [Link.spans, re, spans_append, ← rlo, hrsl]
    exact List.mem_append.mpr (Or.inr hs)
  obtain ⟨g3, hg3, hA3, hm3, hk3⟩ := markRows_spec (t := t) (col := reg.colStart) (last := reg.row) (p := N.y)
    (e := N.y + N.h) (⟨rs.hi, rs.index⟩ :: rpost) g2
    (by rw [Ascend_append, ← rlo, hrsl] at hra; exact hra.2)
    (by rw [List.map_append, List.nodup_append] at hrn; exact hrn.2.1)
    (by have := hI2.cols.index_lt hcs; omega)
    (by
      intro c hc
      have := hI2.rows.lt c (by rw [re]; exact List.mem_append.mpr (Or.inr hc))
      omega)
    (fun r hr hl => hF2.left r (hrmem' r hr).1 (hrmem' r hr).2 hl)
    ⟨rr, hrmem rr hrr (by
      rcases hI2.rows.apart hrs hrr with e | e | e
      · rw [← e]; omega
      · omega
      · omega), hrri, hrrh⟩
  simp only [ht, hrcf, hg3]
  -- the columns from the start on
  obtain ⟨cpre, cpost, ce, clo⟩ := spans_split hcs
  have hcn := hI2.cols.nodup
  have hca := hI2.cols.asc
  rw [ce] at hcn hca
  have hccf : cellsFrom g3.cols.cells reg.colStart = ⟨cs.hi, cs.index⟩ :: cpost := by
    rw [hA3.cols, ← hcsi, ce]
    exact cellsFrom_append (c := ⟨cs.hi, cs.index⟩) hcn
  have hcmem' : ∀ s ∈ spans cs.hi cpost, s ∈ g2.cols.spans ∧ cs.hi ≤ s.lo := by
    intro s hs
    rw [Ascend_append] at hca
    refine ⟨?_, (hca.2.2.mem hs).1⟩
    rw [Link.spans, ce, spans_append]
    simp only [spans, List.mem_append, List.mem_cons]
    exact Or.inr (Or.inr hs)
  have hcmem : ∀ s ∈ g2.cols.spans, cs.hi ≤ s.lo → s ∈ spans cs.hi cpost := by
    intro s hs hl
    rw [Link.spans, ce] at hs
    have := mem_suffix hca hs (by omega)
    simp only [spans, List.mem_cons] at this
    rcases this with rfl | h
    · simp only at hl csb
      omega
    · exact h
  have hg4 : ∃ g4, (if reg.colStart = reg.col then Except.ok g3 else
        g3.markCols reg.rowStart reg.col t (cellsFrom g3.cols.cells reg.colStart).tail) = .ok g4 ∧ Alike g2 g4 ∧
      (∀ r ∈ g2.rows.spans, N.y ≤ r.lo → r.lo < N.y + N.h → g4.jump r.index reg.colStart = some t) ∧
      (∀ c ∈ g2.cols.spans, N.x ≤ c.lo → c.lo < N.x + N.w → g4.jump reg.rowStart c.index = some t) ∧
      ∀ r ∈ g2.rows.spans, ∀ c ∈ g2.cols.spans, g4.jump r.index c.index = g2.jump r.index c.index ∨
        (g4.jump r.index c.index = some t ∧ (N.x ≤ c.lo ∧ c.lo < N.x + N.w) ∧ N.y ≤ r.lo ∧ r.lo < N.y + N.h) := by
    have hC3 : ∀ r ∈ g2.rows.spans, ∀ c ∈ g2.cols.spans, g3.jump r.index c.index = g2.jump r.index c.index ∨
        (g3.jump r.index c.index = some t ∧ (N.x ≤ c.lo ∧ c.lo < N.x + N.w) ∧ N.y ≤ r.lo ∧ r.lo < N.y + N.h) := by
      intro r hr c hc
      by_cases hcx : c.index = reg.colStart
      · by_cases hrx : N.y ≤ r.lo ∧ r.lo < N.y + N.h
        · right
          have e : c = cs := hI2.cols.inj hc hcs (hcx.trans hcsi.symm)
          refine ⟨?_, ⟨by rw [e]; omega, by rw [e]; omega⟩, hrx⟩
          rw [hcx]
          exact hm3 r (hrmem r hr hrx.1) hrx.2
        · left
          refine hk3 _ _ (Or.inr ?_)
          intro s hs hl e
          have := hI2.rows.inj (hrmem' s hs).1 hr e
          subst this
          exact hrx ⟨(hrmem' s hs).2, hl⟩
      · exact Or.inl (hk3 _ _ (Or.inl hcx))
    by_cases heq : reg.colStart = reg.col
    · rw [if_pos heq]
      have hce : cs = cc := hI2.cols.inj hcs hcc (by rw [hcsi, hcci, heq])
      refine ⟨g3, rfl, hA3, fun r hr h1 h2 => hm3 r (hrmem r hr h1) h2, ?_, hC3⟩
      intro c hc h1 h2
      have : c = cs := by
        rcases hI2.cols.apart hc hcs with e | e | e
        · exact e
        · have := hI2.cols.mem hc; omega
        · rw [hce] at e; omega
      rw [this, ← hrsi, hcsi]
      exact hm3 rs (hrmem rs hrs (by omega)) (by omega)
    · rw [if_neg heq, hccf]
      have hnc : ∀ s ∈ spans cs.hi cpost, s.index ≠ reg.colStart := by
        intro s hs e
        have := hI2.cols.inj (hcmem' s hs).1 hcs (e.trans hcsi.symm)
        have h' := (hcmem' s hs).2
        rw [this] at h'
        omega
      obtain ⟨g4, hg4, hA4, hm4, hk4⟩ := markCols_spec (t := t) (row := reg.rowStart) (last := reg.col) (p := cs.hi)
        (e := N.x + N.w) cpost g3 (by rw [Ascend_append] at hca; exact hca.2.2)
        (by
          rw [List.map_append, List.nodup_append] at hcn
          exact (List.nodup_cons.mp hcn.2.1).2)
        (by have := hI2.rows.index_lt hrs; rw [hA3.size]; omega)
        (by
          intro c hc
          have := hI2.cols.lt c (by rw [ce]; exact List.mem_append.mpr (Or.inr (List.mem_cons_of_mem _ hc)))
          rw [hA3.size]
          omega)
        (by
          intro c hc hl
          rw [hk3 _ _ (Or.inl (hnc c hc))]
          obtain ⟨k1, k2⟩ := hcmem' c hc
          exact hF2.top c k1 (by omega) hl)
        ⟨cc, hcmem cc hcc (by
          rcases hI2.cols.apart hcs hcc with e | e | e
          · exact absurd (by rw [← hcsi, ← hcci, e]) heq
          · exact e
          · omega), hcci, hcch⟩
      refine ⟨g4, hg4, hA3.trans hA4, ?_, ?_, ?_⟩
      · intro r hr h1 h2
        rw [hk4 _ _ (Or.inr (fun c hc _ => hnc c hc))]
        exact hm3 r (hrmem r hr h1) h2
      · intro c hc h1 h2
        rcases hI2.cols.apart hcs hc with e | e | e
        · rw [← e, hcsi, hk4 _ _ (Or.inr (fun c hc _ => hnc c hc)), ← hrsi]
          exact hm3 rs (hrmem rs hrs (by omega)) (by omega)
        · exact hm4 c (hcmem c hc e) h2
        · have := hI2.cols.mem hc; omega
      · intro r hr c hc
        by_cases hx : r.index = reg.rowStart ∧ cs.hi ≤ c.lo ∧ c.lo < N.x + N.w
        · right
          have e : r = rs := hI2.rows.inj hr hrs (hx.1.trans hrsi.symm)
          refine ⟨?_, ⟨by omega, hx.2.2⟩, by rw [e]; omega, by rw [e]; omega⟩
          rw [hx.1]
          exact hm4 c (hcmem c hc hx.2.1) hx.2.2
        · have : g4.jump r.index c.index = g3.jump r.index c.index := by
            refine hk4 _ _ ?_
            by_cases hri : r.index = reg.rowStart
            · right
              intro s hs hl e
              have := hI2.cols.inj (hcmem' s hs).1 hc e
              subst this
              exact hx ⟨hri, (hcmem' s hs).2, hl⟩
            · exact Or.inl hri
          rw [this]
          exact hC3 r hr c hc
  obtain ⟨g4, hg4, hA4, hA, hB, hC⟩ := hg4
  refine ⟨g4, hg4, ?_, by rw [hA4.size, hs2, hs1], by rw [hA4.width, hw2, hw1], by rw [hA4.height, hh2, hh1],
    by rw [hA4.rows, hr2]; exact hu1, by rw [hA4.cols, ← hc1]; exact hu2, ?_⟩
  rotate_left
  · intro hE c hc
    rw [hA4.cols] at hc
    rcases hed c hc with ⟨o, ho, e⟩ | e
    · rw [hc1] at ho
      rcases hE o ho with h0 | ⟨R, hR, hR'⟩
      · exact Or.inl (by omega)
      · exact Or.inr ⟨R, List.mem_append.mpr (Or.inl hR), by omega⟩
    · exact Or.inr ⟨N, List.mem_append.mpr (Or.inr (by simp)), e.symm⟩
  have hcolN : ∀ c ∈ g2.cols.spans, (N.x ≤ c.lo ∨ c.hi ≤ N.x) ∧ (N.x + N.w ≤ c.lo ∨ c.hi ≤ N.x + N.w) := by
    intro c hc
    have h1 := hI2.cols.apart hc hcs
    have h2 := hI2.cols.apart hc hcc
    have h3 := hI2.cols.mem hc
    constructor
    · rcases h1 with rfl | h1 | h1 <;> omega
    · rcases h2 with rfl | h2 | h2 <;> omega
  have hrowN : ∀ c ∈ g2.rows.spans, (N.y ≤ c.lo ∨ c.hi ≤ N.y) ∧ (N.y + N.h ≤ c.lo ∨ c.hi ≤ N.y + N.h) := by
    intro c hc
    have h1 := hI2.rows.apart hc hrs
    have h2 := hI2.rows.apart hc hrr
    have h3 := hI2.rows.mem hc
    constructor
    · rcases h1 with rfl | h1 | h1 <;> omega
    · rcases h2 with rfl | h2 | h2 <;> omega
  constructor
  · rw [hA4.cols, hA4.width]; exact hI2.cols
  · rw [hA4.rows, hA4.height]; exact hI2.rows
  · rw [hA4.cols, hA4.size]; exact hI2.colSize
  · rw [hA4.rows, hA4.size]; exact hI2.rowSize
  · rw [hA4.cols, hA4.size]; exact hI2.colUsed
  · rw [hA4.rows, hA4.size]; exact hI2.rowUsed
  · rw [hA4.width, hA4.height]
    intro R hR
    rcases List.mem_append.mp hR with hR | hR
    · exact hI2.pos R hR
    · rw [List.mem_singleton] at hR
      subst hR
      omega
  · rw [hA4.cols]
    intro R hR
    rcases List.mem_append.mp hR with hR | hR
    · exact hI2.colEdge R hR
    · rw [List.mem_singleton] at hR
      subst hR
      exact hcolN
  · rw [hA4.rows]
    intro R hR
    rcases List.mem_append.mp hR with hR | hR
    · exact hI2.rowEdge R hR
    · rw [List.mem_singleton] at hR
      subst hR
      exact hrowN
  · rw [List.pairwise_append]
    refine ⟨hI2.apart, List.pairwise_singleton _ _, ?_⟩
    intro R hR b hb
    rw [List.mem_singleton] at hb
    subst hb
    exact hF2.apart hI2 R hR
  · intro R hR
    rcases List.mem_append.mp hR with hR | hR
    · rcases hI2.support R hR with h0 | ⟨Q, hQ, q⟩
      · exact Or.inl h0
      · exact Or.inr ⟨Q, List.mem_append.mpr (Or.inl hQ), q⟩
    · rw [List.mem_singleton] at hR
      subst hR
      rcases hF2.clean with h0 | ⟨Q, hQ, q⟩
      · exact Or.inl h0
      · exact Or.inr ⟨Q, List.mem_append.mpr (Or.inl hQ), q⟩
  · rw [hA4.cols, hA4.rows]
    intro r hr c hc
    rcases hC r hr c hc with e | e
    · rw [e]; exact hI2.init r hr c hc
    · exact ⟨t, e.1⟩
  · rw [hA4.cols, hA4.rows]
    intro r hr c hc R hR h1 h2 h3
    rcases List.mem_append.mp hR with hR | hR
    · rcases hC r hr c hc with e | e
      · rw [e]; exact hI2.marks r hr c hc R hR h1 h2 h3
      · rw [e.1]; exact fun e => htf (Option.some.inj e)
    · rw [List.mem_singleton] at hR
      subst hR
      have h1 : R.x ≤ c.lo ∧ c.hi ≤ R.x + R.w := h1
      have h2 : R.y ≤ r.lo ∧ r.hi ≤ R.y + R.h := h2
      have cb := hI2.cols.mem hc
      have rb := hI2.rows.mem hr
      have : g4.jump r.index c.index = some t := by
        rcases h3 with h3 | h3
        · have e : c = cs := by
            rcases hI2.cols.apart hc hcs with e | e | e
            · exact e
            · omega
            · omega
          rw [e, hcsi]
          exact hA r hr h2.1 (by omega)
        · have e : r = rs := by
            rcases hI2.rows.apart hr hrs with e | e | e
            · exact e
            · omega
            · omega
          rw [e, hrsi]
          exact hB c hc h1.1 (by omega)
      rw [this]
      exact fun e => htf (Option.some.inj e)
  · rw [hA4.cols, hA4.rows, hA4.height]
    intro r hr c hc he
    rcases hC r hr c hc with e | ⟨e, e1, e2⟩
    · rw [e] at he
      obtain ⟨Q, hQ, q⟩ := hI2.full r hr c hc he
      exact ⟨Q, List.mem_append.mpr (Or.inl hQ), q⟩
    · have : t = .full := by rw [e] at he; exact Option.some.inj he
      have := hcolN c hc
      exact ⟨N, List.mem_append.mpr (Or.inr (by simp)), ⟨by omega, by omega⟩, htfull (by assumption)⟩
  · rw [hA4.cols, hA4.rows]
    intro r hr c hc i he
    rcases hC r hr c hc with e | ⟨e, e1, e2⟩
    · rw [e] at he
      obtain ⟨s, hs, s1, s2, Q, hQ, q⟩ := hI2.target r hr c hc i he
      exact ⟨s, hs, s1, s2, Q, List.mem_append.mpr (Or.inl hQ), q⟩
    · have hti : t = .row i := by rw [e] at he; exact Option.some.inj he
      obtain ⟨s, hs, s1, s2⟩ := htrow i hti
      have := hcolN c hc
      exact ⟨s, hs, s1, by omega, N, List.mem_append.mpr (Or.inr (by simp)), ⟨by omega, by omega⟩, s2.symm⟩
  · rw [hA4.cols, hA4.rows, hA4.height]
    intro r hr c hc he
    rcases hC r hr c hc with e | ⟨e, e1, e2⟩
    · rw [e] at he
      exact (hI2.fullSolid r hr c hc he).mono (fun Q hQ => List.mem_append.mpr (Or.inl hQ)) (Int.le_refl _) (Int.le_refl _)
    · have : t = .full := by rw [e] at he; exact Option.some.inj he
      have hH := htfull this
      have := hcolN c hc
      intro z z1 z2
      exact ⟨N, List.mem_append.mpr (Or.inr (by simp)), ⟨by omega, by omega⟩, by omega, by omega⟩
  · rw [hA4.cols, hA4.rows]
    intro r hr c hc s hs he
    rcases hC r hr c hc with e | ⟨e, e1, e2⟩
    · rw [e] at he
      exact (hI2.rowSolid r hr c hc s hs he).mono (fun Q hQ => List.mem_append.mpr (Or.inl hQ)) (Int.le_refl _) (Int.le_refl _)
    · have hti : t = .row s.index := by rw [e] at he; exact Option.some.inj he
      obtain ⟨s', hs', s1, s2⟩ := htrow s.index hti
      have hss := hI2.rows.inj hs' hs s1
      subst hss
      have := hcolN c hc
      intro z z1 z2
      exact ⟨N, List.mem_append.mpr (Or.inr (by simp)), ⟨by omega, by omega⟩, by omega, by omega⟩

end Pack
end MM
