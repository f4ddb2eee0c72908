import Verif.Pack.GridInv

/-! What the search for a free region finds. -/

namespace MM
namespace Pack

open Spec.Pack

/-- Writing another mark over a mark keeps the invariant. -/
theorem Inv.lengthen {g : Grid} {P : List Placed} (h : Inv g P) {first : Option Nat} {r c : Span} (hr : r ∈ g.rows.spans)
    (hc : c ∈ g.cols.spans) {t : Jump} (ht : g.jump r.index c.index = some t) (hn : t ≠ .free)
    (hf : ∀ f, first = some f → ∃ s ∈ g.rows.spans, s.index = f ∧ s.lo ≤ r.lo ∧ g.jump f c.index ≠ some .free ∧
      Solid P c s.lo r.lo) :
    Inv (g.lengthen first c.index t) P ∧ Alike g (g.lengthen first c.index t) := by
  cases first with
  | none => exact ⟨h, Alike.refl g⟩
  | some f =>
    obtain ⟨s, hs, rfl, hsl, hsj, hsol⟩ := hf f rfl
    have hj : ∀ a ∈ g.rows.spans, ∀ b ∈ g.cols.spans, (g.write s.index c.index t).jump a.index b.index =
        if a = s ∧ b = c then some t else g.jump a.index b.index := by
      intro a ha b hb
      show (if a.index = s.index ∧ b.index = c.index then some t else g.jump a.index b.index) = _
      by_cases e : a = s ∧ b = c
      · rw [if_pos e, if_pos ⟨by rw [e.1], by rw [e.2]⟩]
      · rw [if_neg e, if_neg (fun h' => e ⟨h.rows.inj ha hs h'.1, h.cols.inj hb hc h'.2⟩)]
    refine ⟨⟨h.cols, h.rows, h.colSize, h.rowSize, h.colUsed, h.rowUsed, h.pos, h.colEdge, h.rowEdge, h.apart,
      h.support, ?_, ?_, ?_, ?_, ?_, ?_⟩, ⟨rfl, rfl, rfl, rfl, rfl⟩⟩
    · intro a ha b hb
      show ∃ u, (g.write s.index c.index t).jump a.index b.index = some u
      rw [hj a ha b hb]
      split
      · exact ⟨t, rfl⟩
      · exact h.init a ha b hb
    · intro a ha b hb R hR h1 h2 h3
      show (g.write s.index c.index t).jump a.index b.index ≠ some .free
      rw [hj a ha b hb]
      split
      · intro e; exact hn (Option.some.inj e)
      · exact h.marks a ha b hb R hR h1 h2 h3
    · intro a ha b hb he
      have he : (g.write s.index c.index t).jump a.index b.index = some .full := he
      rw [hj a ha b hb] at he
      split at he
      · next e =>
        rw [e.2]
        exact h.full r hr c hc (by rw [ht, Option.some.inj he])
      · exact h.full a ha b hb he
    · intro a ha b hb u he
      have he : (g.write s.index c.index t).jump a.index b.index = some (.row u) := he
      rw [hj a ha b hb] at he
      split at he
      · next e =>
        rw [e.1, e.2]
        obtain ⟨q, hq, q1, q2, q3⟩ := h.target r hr c hc u (by rw [ht, Option.some.inj he])
        exact ⟨q, hq, q1, by omega, q3⟩
      · exact h.target a ha b hb u he
    · intro a ha b hb he
      have he : (g.write s.index c.index t).jump a.index b.index = some .full := he
      rw [hj a ha b hb] at he
      split at he
      · next e =>
        rw [e.1, e.2]
        exact hsol.trans (h.fullSolid r hr c hc (by rw [ht, Option.some.inj he]))
      · exact h.fullSolid a ha b hb he
    · intro a ha b hb u hu he
      have he : (g.write s.index c.index t).jump a.index b.index = some (.row u.index) := he
      rw [hj a ha b hb] at he
      split at he
      · next e =>
        rw [e.1, e.2]
        exact hsol.trans (h.rowSolid r hr c hc u hu (by rw [ht, Option.some.inj he]))
      · exact h.rowSolid a ha b hb u hu he

/-- What the search along a row finds. -/
theorem scanCols_spec {g : Grid} {P : List Placed} (h : Inv g P) {s : Span} (hs : s ∈ g.rows.spans) {colEnd p : Int}
    {pre cols : List Cell} (hc : g.cols.cells = pre ++ cols) (hp : lastEnd 0 pre = p) (hlt : p < colEnd) :
    (g.scanCols s.index colEnd cols = .ok none ∧ (lastEnd p cols < colEnd ∨
      ∃ e ∈ spans p cols, e.lo < colEnd ∧ g.jump s.index e.index ≠ some .free)) ∨ ∃ d ∈ spans p cols, g.scanCols s.index colEnd cols = .ok (some d.index) ∧
      d.lo < colEnd ∧ colEnd ≤ d.hi ∧ ∀ e ∈ spans p cols, e.lo < colEnd → g.jump s.index e.index = some .free := by
  induction cols generalizing pre p with
  | nil => exact Or.inl ⟨rfl, Or.inl hlt⟩
  | cons c cs ih =>
    have hin : (⟨c.index, p, c.endPos⟩ : Span) ∈ g.cols.spans := by
      rw [Link.spans, hc, spans_append, hp]
      simp [spans]
    have hasc : Ascend p (c :: cs) := by
      have := h.cols.asc
      rw [hc, Ascend_append, hp] at this
      exact this.2
    obtain ⟨t, ht, hread⟩ := h.read hs hin
    simp only at ht hread
    simp only [Grid.scanCols, hread, bind, Except.bind]
    by_cases hfree : t = .free
    · subst hfree
      simp only [ne_eq, not_true_eq_false, if_false]
      by_cases hle : colEnd ≤ c.endPos
      · refine Or.inr ⟨⟨c.index, p, c.endPos⟩, by simp [spans], by rw [if_pos hle], hlt, hle, ?_⟩
        intro e he hel
        simp only [spans, List.mem_cons] at he
        rcases he with rfl | he
        · exact ht
        · have := hasc.2.mem he
          omega
      · rw [if_neg hle]
        have := ih (pre := pre ++ [c]) (p := c.endPos) (by rw [hc]; simp) (by rw [lastEnd_append]; rfl) (by omega)
        rcases this with ⟨h1, h2⟩ | ⟨d, hd, h1, h2, h3, h4⟩
        · refine Or.inl ⟨h1, h2.imp_right ?_⟩
          rintro ⟨e, he, h3⟩
          exact ⟨e, by simp [spans, he], h3⟩
        · refine Or.inr ⟨d, by simp [spans, hd], h1, h2, h3, ?_⟩
          intro e he hel
          simp only [spans, List.mem_cons] at he
          rcases he with rfl | he
          · exact ht
          · exact h4 e he hel
    · left
      refine ⟨by simp [hfree], Or.inr ⟨⟨c.index, p, c.endPos⟩, by simp [spans], hlt, ?_⟩⟩
      rw [ht]
      exact fun e => hfree (Option.some.inj e)

/-- What the loop over rows for one column finds. -/
theorem scanRows_spec {P : List Placed} {w h : Int} {c : Span} {ccs cs : List Cell} (hw : 0 < w) (hh : 0 < h) :
    ∀ (fuel : Nat) (g : Grid) (delta : Int) (spre start mid row : List Cell) (y : Int) (first : Option Nat),
      Inv g P → 1 ≤ delta → g.cols.cells = ccs ++ ⟨c.hi, c.index⟩ :: cs → c.lo = lastEnd 0 ccs →
      g.rows.cells = spre ++ start → start = mid ++ row → row ≠ [] → lastEnd 0 spre = y →
      (∀ s ∈ spans y mid, g.jump s.index c.index = some .free) → lastEnd y mid < y + h →
      (y = 0 ∨ ∃ Q ∈ P, Wide Q c ∧ Q.y + Q.h = y) →
      (∀ f, first = some f → ∃ s ∈ g.rows.spans, s.index = f ∧ s.lo ≤ lastEnd y mid ∧ g.jump f c.index ≠ some .free ∧
        Solid P c s.lo (lastEnd y mid)) →
      (∀ z, y ≤ z → z < lastEnd y mid → ∀ Q ∈ P, Wide Q c → ¬ (Q.y ≤ z ∧ z < Q.y + Q.h)) →
      (∀ z, 0 ≤ z → z < y → ¬ ColFree P c.lo h z) →
      row.length < fuel →
      ∃ g' delta' reg, Grid.scanRows h (c.lo + w) c.index (⟨c.hi, c.index⟩ :: cs) fuel g delta start row (y + h) first =
          .ok (g', delta', reg) ∧ Inv g' P ∧ Alike g g' ∧ 1 ≤ delta' ∧ delta' ≤ delta ∧
        (∀ r, reg = some r → ∃ y, Fits g' P ⟨c.lo, y, w, h⟩ r ∧ Lowest P c.lo h y ∧ y + h ≤ g.height ∧ c.lo + w ≤ g.width) ∧
        (reg = none → CanGo P g.height w h c.lo → g.width < c.lo + w) := by
  intro fuel
  induction fuel with
  | zero => intro g delta spre start mid row y first _ _ _ _ _ _ _ _ _ _ _ _ _ _ hf; omega
  | succ fuel ih =>
    intro g delta spre start mid row y first hI hd hcc hcl hrows hstart hne hy hmid hlast hclean hfirst hopen hlow hfuel
    have hcin : c ∈ g.cols.spans := by
      rw [Link.spans, hcc, spans_append, ← hcl]
      simp [spans]
    cases row with
    | nil => exact absurd rfl hne
    | cons r rs =>
      obtain ⟨s, ss, hss⟩ : ∃ s ss, start = s :: ss := by
        cases mid with
        | nil => exact ⟨r, rs, hstart⟩
        | cons a as => exact ⟨a, as ++ r :: rs, hstart⟩
      have hrows2 : g.rows.cells = (spre ++ mid) ++ r :: rs := by rw [hrows, hstart]; simp
      have hrin : (⟨r.index, lastEnd y mid, r.endPos⟩ : Span) ∈ g.rows.spans := by
        rw [Link.spans, hrows2, spans_append, lastEnd_append, hy]
        simp [spans]
      obtain ⟨t, ht, hread⟩ := hI.read hrin hcin
      simp only at ht hread
      subst hss
      simp only [Grid.scanRows, hread, bind, Except.bind]
      have hrb := hI.rows.mem hrin
      simp only at hrb
      have hyle : y ≤ lastEnd y mid := by
        have := hI.rows.asc
        rw [hrows2, Ascend_append, Ascend_append, hy] at this
        exact this.1.2.le
      -- what covers the column from here on blocks all places that start below its end
      have hblock : ∀ b, Solid P c (lastEnd y mid) b → lastEnd y mid < b → ∀ z, 0 ≤ z → z < b → ¬ ColFree P c.lo h z := by
        intro b hb hlb z h0 hz hfr
        by_cases hzy : z < y
        · exact hlow z h0 hzy hfr
        · have hcb := hI.cols.mem hcin
          by_cases hzm : z ≤ lastEnd y mid
          · obtain ⟨Q, hQ, q1, q2⟩ := hb (lastEnd y mid) (Int.le_refl _) hlb
            have q1 : Q.x ≤ c.lo ∧ c.hi ≤ Q.x + Q.w := q1
            exact hfr Q hQ ⟨q1.1, by omega, by omega, by omega⟩
          · obtain ⟨Q, hQ, q1, q2⟩ := hb z (by omega) hz
            have q1 : Q.x ≤ c.lo ∧ c.hi ≤ Q.x + Q.w := q1
            exact hfr Q hQ ⟨q1.1, by omega, by omega, by omega⟩
      cases t with
      | full =>
        obtain ⟨hI', hA⟩ := hI.lengthen hrin hcin ht (by simp) (first := first) hfirst
        refine ⟨_, _, _, rfl, hI', hA, hd, Int.le_refl _, fun r e => (by cases e), fun _ hgo => ?_⟩
        obtain ⟨z, z1, z2, z3⟩ := hgo
        exact absurd z1.free (hblock g.height (hI.fullSolid _ hrin c hcin ht) (by omega) z z1.nonneg (by omega))
      | row t =>
        obtain ⟨q, hq, rfl, q2, q3⟩ := hI.target _ hrin c hcin t ht
        obtain ⟨pre, post, e1, e2⟩ := spans_split hq
        have hn := hI.rows.nodup
        rw [e1] at hn
        have hpre : pre ≠ [] := by
          rintro rfl
          simp only [lastEnd] at e2
          simp only at q2
          omega
        have hpe : prevEnd g.rows.cells q.index = some q.lo := by
          rw [e1, e2]
          exact prevEnd_append (c := ⟨q.hi, q.index⟩) hn hpre 0
        have hcf : cellsFrom g.rows.cells q.index = ⟨q.hi, q.index⟩ :: post := by
          rw [e1]
          exact cellsFrom_append (c := ⟨q.hi, q.index⟩) hn
        simp only [hpe, hcf]
        obtain ⟨hI', hA⟩ := hI.lengthen hrin hcin ht (by simp) (first := first) hfirst
        have hlen : (spre ++ mid).length < pre.length := by
          by_contra hcon
          have hp : pre ++ ⟨q.hi, q.index⟩ :: post = (spre ++ mid) ++ r :: rs := by rw [← e1, hrows2]
          have : ∃ k, spre ++ mid = pre ++ k := by
            have := congrArg (List.take pre.length) hp
            rw [List.take_left, List.take_append_of_le_length (by omega)] at this
            exact ⟨(spre ++ mid).drop pre.length, by conv_lhs => rw [← List.take_append_drop pre.length (spre ++ mid), ← this]⟩
          obtain ⟨k, hk⟩ := this
          have hl : lastEnd y mid = lastEnd q.lo k := by
            rw [← hy, ← lastEnd_append, hk, lastEnd_append, e2]
          have hasc := hI.rows.asc
          rw [hrows2, hk, List.append_assoc, Ascend_append, Ascend_append, ← e2] at hasc
          have := hasc.2.1.le
          simp only at q2
          omega
        have hlen2 : post.length < rs.length := by
          have := congrArg List.length (e1.symm.trans hrows2)
          simp only [List.length_append, List.length_cons] at this hlen
          omega
        have hsol := hI.rowSolid _ hrin c hcin q hq ht
        simp only at hsol q2
        obtain ⟨g', d', reg, h1, h2, h3, h4, h5, h6⟩ := ih (g.lengthen first c.index (.row q.index)) delta pre
          (⟨q.hi, q.index⟩ :: post) [] (⟨q.hi, q.index⟩ :: post) q.lo (first.or (some r.index)) hI' hd
          (by rw [hA.cols]; exact hcc) hcl (by rw [hA.rows]; exact e1) rfl (by simp) e2.symm (by intro s hs; cases hs)
          (by simp only [lastEnd]; omega) (Or.inr q3) (by
            intro f hf
            rw [hA.rows]
            cases first with
            | none =>
              simp only [Option.or, Option.some.injEq] at hf
              subst hf
              refine ⟨_, hrin, rfl, ?_, ?_, ?_⟩
              · simp only [lastEnd] at q2 ⊢; omega
              · show g.jump r.index c.index ≠ _
                rw [ht]; simp
              · exact hsol
            | some f' =>
              simp only [Option.or, Option.some.injEq] at hf
              subst hf
              obtain ⟨s', hs', k1, k2, k3, k4⟩ := hfirst f' rfl
              refine ⟨s', hs', k1, ?_, ?_, ?_⟩
              · simp only [lastEnd] at q2 ⊢; omega
              · show (if f' = f' ∧ c.index = c.index then some (Jump.row q.index) else _) ≠ _
                simp
              · exact k4.trans hsol) (by intro z z1 z2; simp only [lastEnd] at z2; omega)
          (hblock q.lo hsol q2) (by simp only [List.length_cons] at hfuel ⊢; omega)
        rw [hA.height, hA.width] at h6
        exact ⟨g', d', reg, h1, h2, hA.trans h3, h4, h5, h6⟩
      | free =>
        have hopen' : ∀ z, y ≤ z → z < r.endPos → ∀ Q ∈ P, Wide Q c → ¬ (Q.y ≤ z ∧ z < Q.y + Q.h) := by
          intro z z1 z2 Q hQ hwide hz
          by_cases hzm : z < lastEnd y mid
          · exact hopen z z1 hzm Q hQ hwide hz
          · have e := hI.rowEdge Q hQ _ hrin
            simp only at e
            have htall : Tall Q ⟨r.index, lastEnd y mid, r.endPos⟩ := ⟨by simp only; omega, by simp only; omega⟩
            have hQm : Q.y ≠ lastEnd y mid := by
              intro hQy
              exact hI.marks _ hrin c hcin Q hQ hwide htall (Or.inr hQy.symm) ht
            have hQm' : Q.y < lastEnd y mid := by
              have := htall.1
              simp only at this
              omega
            by_cases hmy : y < lastEnd y mid
            · exact hopen (lastEnd y mid - 1) (by omega) (by omega) Q hQ hwide (by omega)
            · have hmy : lastEnd y mid = y := by omega
              rcases hclean with h0 | ⟨Q', hQ', k1, k2⟩
              · have := (hI.pos Q hQ).2.1
                omega
              · have hne : Q ≠ Q' := by rintro rfl; omega
                have hap := hI.distinct hQ hQ' hne
                have hcb := hI.cols.mem hcin
                have hp' := hI.pos Q' hQ'
                have w1 : Q.x ≤ c.lo ∧ c.hi ≤ Q.x + Q.w := hwide
                have w2 : Q'.x ≤ c.lo ∧ c.hi ≤ Q'.x + Q'.w := k1
                simp only [Apart] at hap
                omega
        by_cases hlt : r.endPos < y + h
        · simp only [if_pos hlt]
          cases rs with
          | nil =>
            have hrH : r.endPos = g.height := by
              rw [← hI.rows.last, hrows2, lastEnd_append]
              rfl
            refine ⟨_, _, _, rfl, hI, Alike.refl g, ?_, ?_, fun r e => (by cases e), fun _ hgo => ?_⟩
            · omega
            · omega
            · obtain ⟨z, z1, z2, z3⟩ := hgo
              exact absurd z1.free (hlow z z1.nonneg (by omega))
          | cons r' rs' =>
            simp only
            have := ih g delta spre (s :: ss) (mid ++ [r]) (r' :: rs') y none hI hd hcc hcl hrows (by rw [hstart]; simp)
              (by simp) hy (by
                intro s hs
                rw [spans_append] at hs
                simp only [spans, List.mem_append, List.mem_singleton] at hs
                rcases hs with hs | rfl
                · exact hmid s hs
                · exact ht) (by rw [lastEnd_append]; exact hlt) hclean (by intro f hf; cases hf)
              (by rw [lastEnd_append]; exact hopen') hlow
              (by simp only [List.length_cons] at hfuel ⊢; omega)
            exact this
        · simp only [if_neg hlt]
          have hsin : ∃ e, (⟨s.index, y, e⟩ : Span) ∈ g.rows.spans := by
            refine ⟨s.endPos, ?_⟩
            rw [Link.spans, hrows, spans_append, hy]
            simp [spans]
          obtain ⟨e, hsin⟩ := hsin
          have hcb := hI.cols.mem hcin
          rcases scanCols_spec hI hsin (colEnd := c.lo + w) (pre := ccs) (cols := ⟨c.hi, c.index⟩ :: cs) (p := c.lo) hcc
            hcl.symm (by omega) with ⟨h1, h2⟩ | ⟨d, hd1, h1, h2, h3, h4⟩
          · simp only at h1
            simp only [h1]
            refine ⟨_, _, _, rfl, hI, Alike.refl g, hd, Int.le_refl _, fun r e => (by cases e), fun _ hgo => ?_⟩
            obtain ⟨z, z1, z2, z3⟩ := hgo
            rcases h2 with h2 | ⟨d, hd1, hd2, hd3⟩
            · have := hI.cols.last
              rw [hcc, lastEnd_append, ← hcl] at this
              omega
            · exfalso
              -- the lowest place is the one looked at
              have hylow : Lowest P c.lo h y := by
                refine ⟨?_, ?_, hlow⟩
                · have := hI.rows.mem hsin; exact this.1
                · intro Q hQ ⟨q1, q2, q3, q4⟩
                  have hwide := hI.wide hQ hcin q1 q2
                  have hp := hI.pos Q hQ
                  refine hopen' (max y Q.y) (by omega) (by omega) Q hQ hwide (by omega)
              have hzy := z1.unique hylow
              subst hzy
              have hdin : d ∈ g.cols.spans := by
                rw [Link.spans, hcc, spans_append, ← hcl]
                exact List.mem_append.mpr (Or.inr hd1)
              have hdb := hI.cols.mem hdin
              have hsb := hI.rows.mem hsin
              simp only at hsb
              have hdl : c.lo ≤ d.lo := by
                have := hI.cols.asc
                rw [hcc, Ascend_append, ← hcl] at this
                exact (this.2.mem hd1).1
              have hcov : ∃ Q ∈ P, Wide Q d ∧ Q.y ≤ z ∧ z < Q.y + Q.h := by
                obtain ⟨t, ht'⟩ := hI.init _ hsin d hdin
                cases t with
                | free => exact absurd ht' hd3
                | full => exact hI.fullSolid _ hsin d hdin ht' z (Int.le_refl _) (by omega)
                | row t =>
                  obtain ⟨q, hq, rfl, q2, -⟩ := hI.target _ hsin d hdin t ht'
                  exact hI.rowSolid _ hsin d hdin q hq ht' z (Int.le_refl _) q2
              obtain ⟨Q, hQ, k1, k2, k3⟩ := hcov
              have k1 : Q.x ≤ d.lo ∧ d.hi ≤ Q.x + Q.w := k1
              exact z3 Q hQ ⟨k2, k3, by omega, by omega⟩
          · simp only at h1
            simp only [h1]
            refine ⟨_, _, _, rfl, hI, Alike.refl g, hd, Int.le_refl _, ?_, fun e => (by cases e)⟩
            rintro reg he
            cases he
            have hspl : ∀ x ∈ g.cols.spans, c.lo ≤ x.lo → x ∈ spans c.lo (⟨c.hi, c.index⟩ :: cs) := by
              intro x hx hxl
              rw [Link.spans, hcc, spans_append, List.mem_append] at hx
              rcases hx with hx | hx
              · have := hI.cols.asc
                rw [hcc, Ascend_append] at this
                have := this.1.mem hx
                omega
              · rw [← hcl] at hx; exact hx
            have hdin : d ∈ g.cols.spans := by
              rw [Link.spans, hcc, spans_append, ← hcl]
              exact List.mem_append.mpr (Or.inr hd1)
            have hdb := hI.cols.mem hdin
            suffices hfit : Fits g P ⟨c.lo, y, w, h⟩ ⟨s.index, r.index, y + h, c.index, d.index, c.lo + w⟩ by
              refine ⟨y, hfit, ⟨?_, ?_, hlow⟩, by omega, by omega⟩
              · exact (hI.rows.mem hsin).1
              · intro Q hQ q
                have := hfit.apart hI Q hQ
                simp only [Apart] at this
                omega
            refine ⟨hw, hh, rfl, rfl, ⟨_, hsin, rfl, rfl⟩, ⟨c, hcin, rfl, rfl⟩, ⟨_, hrin, rfl, hlast, by simp only; omega⟩,
              ⟨d, hdin, rfl, h2, h3⟩, ?_, ?_, ?_⟩
            · intro a ha ha1 ha2
              simp only at ha1 ha2
              have hasc := hI.rows.asc
              rw [hrows2, Ascend_append, Ascend_append, lastEnd_append, hy] at hasc
              rw [Link.spans, hrows2, spans_append, spans_append, lastEnd_append, hy] at ha
              simp only [spans, List.mem_append, List.mem_cons] at ha
              rcases ha with (ha | ha) | rfl | ha
              · have := hasc.1.1.mem ha
                omega
              · exact hmid a ha
              · exact ht
              · have := hasc.2.2.mem ha
                omega
            · intro x hx hx1 hx2
              exact h4 x (hspl x hx hx1) hx2
            · rcases hclean with h0 | ⟨Q, hQ, q1, q2⟩
              · exact Or.inl h0
              · exact Or.inr ⟨Q, hQ, q1.1, by have := q1.2; simp only; omega, q2⟩

/-- What the loop over columns finds. -/
theorem findFrom_spec {P : List Placed} {w h : Int} (hw : 0 < w) (hh : 0 < h) :
    ∀ (cs ccs : List Cell) (g : Grid) (delta lo : Int), Inv g P → 1 ≤ delta → g.cols.cells = ccs ++ cs →
      lo = lastEnd 0 ccs → (∀ c ∈ g.cols.spans, c.lo < lo → CanGo P g.height w h c.lo → g.width < c.lo + w) →
      ∃ g' delta' reg, g.findFrom w h delta (lo + w) cs = .ok (g', delta', reg) ∧ Inv g' P ∧ Alike g g' ∧ 1 ≤ delta' ∧
        delta' ≤ delta ∧ (∀ r, reg = some r → ∃ x y, Fits g' P ⟨x, y, w, h⟩ r ∧ Pick g P ⟨x, y, w, h⟩) ∧
        (reg = none → ∀ c ∈ g.cols.spans, CanGo P g.height w h c.lo → g.width < c.lo + w) := by
  intro cs
  induction cs with
  | nil =>
    intro ccs g delta lo hI hd hcc hlo hbad
    refine ⟨_, _, _, rfl, hI, Alike.refl g, hd, Int.le_refl _, fun r e => (by cases e), fun _ c hc => ?_⟩
    have := hI.cols.mem hc
    have hl := hI.cols.last
    rw [hcc, List.append_nil, ← hlo] at hl
    exact hbad c hc (by omega)
  | cons c cs ih =>
    intro ccs g delta lo hI hd hcc hlo hbad
    obtain ⟨g1, d1, reg1, h1, h2, h3, h4, h5, h6, h7⟩ := scanRows_spec (P := P) (c := ⟨c.index, lo, c.endPos⟩) (ccs := ccs)
      (cs := cs) hw hh (g.rows.cells.length + 1) g delta [] g.rows.cells [] g.rows.cells 0 none hI hd hcc hlo rfl rfl
      hI.rows.ne rfl (by intro s hs; cases hs) (by simp only [lastEnd]; omega) (Or.inl rfl) (by intro f hf; cases hf)
      (by intro z z1 z2; simp only [lastEnd] at z2; omega) (by intro z z1 z2; omega)
      (Nat.lt_succ_self _)
    simp only [Int.zero_add] at h1
    simp only [Grid.findFrom, h1, bind, Except.bind]
    have hcin : (⟨c.index, lo, c.endPos⟩ : Span) ∈ g.cols.spans := by
      rw [Link.spans, hcc, spans_append, ← hlo]
      simp [spans]
    cases reg1 with
    | some r =>
      obtain ⟨y, hy, hlow, hyH, hxW⟩ := h6 r rfl
      refine ⟨_, _, _, rfl, h2, h3, h4, h5, fun r' e => ?_, fun e => (by cases e)⟩
      cases e
      refine ⟨_, y, hy, ⟨_, hcin, rfl⟩, hlow, hyH, ?_, hxW, ?_⟩
      · intro Q hQ q
        have := hy.apart h2 Q hQ
        simp only [Apart] at this
        simp only at q
        omega
      · intro c' hc' hl hgo
        have := hbad c' hc' hl hgo
        simp only at hl hxW
        omega
    | none =>
      have hbad' : ∀ c' ∈ g.cols.spans, c'.lo < c.endPos → CanGo P g.height w h c'.lo → g.width < c'.lo + w := by
        intro c' hc' hl hgo
        rcases hI.cols.apart hcin hc' with e | e | e
        · subst e
          exact h7 rfl hgo
        · simp only at e; omega
        · have := hI.cols.mem hc'
          simp only at e
          exact hbad c' hc' (by omega) hgo
      simp only
      split
      · rename_i hgt
        rw [h3.width] at hgt
        refine ⟨_, _, _, rfl, h2, h3, h4, h5, fun r e => (by cases e), fun _ c' hc' hgo => ?_⟩
        by_cases hl : c'.lo < c.endPos
        · exact hbad' c' hc' hl hgo
        · omega
      · obtain ⟨g', d', reg, k1, k2, k3, k4, k5, k6, k7⟩ := ih (ccs ++ [c]) g1 d1 c.endPos h2 h4
          (by rw [h3.cols, hcc]; simp) (by rw [lastEnd_append]; rfl) (by rw [h3.cols, h3.height, h3.width]; exact hbad')
        rw [h3.cols, h3.height, h3.width] at k7
        refine ⟨g', d', reg, k1, k2, h3.trans k3, k4, by omega, fun r e => ?_, k7⟩
        obtain ⟨x, y, a, b⟩ := k6 r e
        refine ⟨x, y, a, ?_⟩
        obtain ⟨b1, b2, b3, b4, b5, b6⟩ := b
        rw [h3.cols] at b1 b6
        rw [h3.height] at b3 b6
        rw [h3.width] at b5
        exact ⟨b1, b2, b3, b4, b5, b6⟩

/-- What `grid_find_region` finds. -/
theorem find_spec {g : Grid} {P : List Placed} {w h : Int} (hI : Inv g P) (hw : 0 < w) (hh : 0 < h) :
    ∃ g' delta reg, g.find w h = .ok (g', delta, reg) ∧ Inv g' P ∧ Alike g g' ∧ 1 ≤ delta ∧ delta ≤ h ∧
      (∀ r, reg = some r → ∃ x y, Fits g' P ⟨x, y, w, h⟩ r ∧ Pick g P ⟨x, y, w, h⟩) ∧
      (reg = none → ∀ c ∈ g.cols.spans, CanGo P g.height w h c.lo → g.width < c.lo + w) := by
  have := findFrom_spec (P := P) hw hh g.cols.cells [] g h 0 hI hh rfl rfl (by
    intro c hc hl
    have := hI.cols.mem hc
    omega)
  rw [Int.zero_add] at this
  exact this

end Pack
end MM
