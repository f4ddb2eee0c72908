import Verif.Pack.ReplayInv

/-! Without restrictions the rectangle packer succeeds. -/

namespace MM
namespace Pack

open Spec.Pack

/-- The area recorded for a rectangle is right and fits in an `int`. -/
structure Plain (r : Rect) : Prop where
  small : Small r
  area : r.area = r.width * r.height
  area' : r.area < 2 ^ 31

theorem Plain.pos {r : Rect} (h : Plain r) : 0 < r.area := by
  rw [h.area]
  exact Int.mul_pos h.small.w h.small.h

theorem Plain.turn {r : Rect} (h : Plain r) : Plain r.turn := by
  refine ⟨⟨h.small.h, h.small.w, h.small.h', h.small.w'⟩, ?_, h.area'⟩
  show r.area = r.height * r.width
  rw [h.area, Int.mul_comm]

/-- Lists in the same order agree on the keys. -/
theorem sorted_keys {f : Rect → Int} (hf : ∀ r, Plain r → 0 ≤ f r ∧ f r < 2 ^ 31) {l l' : List Rect} (hp : l.Perm l')
    (hpl : ∀ r ∈ l', Plain r) (h1 : l.Pairwise fun a b => lexCmp f a b ≤ 0) (h2 : l'.Pairwise fun a b => lexCmp f a b ≤ 0) :
    l.map (fun r => (f r, r.area)) = l'.map (fun r => (f r, r.area)) := by
  have conv : ∀ l : List Rect, (∀ r ∈ l, Plain r) → (l.Pairwise fun a b => lexCmp f a b ≤ 0) →
      (l.map (fun r => (f r, r.area))).Pairwise (fun a b => b.1 < a.1 ∨ (a.1 = b.1 ∧ b.2 ≤ a.2)) := by
    intro l hl h
    rw [List.pairwise_map]
    refine List.Pairwise.imp_of_mem ?_ h
    intro a b ha hb hab
    rw [lexCmp_le] at hab
    have pa := hl a ha
    have pb := hl b hb
    have fa := hf a pa
    have fb := hf b pb
    have aa := pa.pos
    have ab := pb.pos
    have aa' := pa.area'
    have ab' := pb.area'
    rw [toInt_small fa.1 fa.2, toInt_small fb.1 fb.2, toInt_small (by omega) aa', toInt_small (by omega) ab'] at hab
    exact hab
  refine List.Perm.eq_of_pairwise (le := fun a b => b.1 < a.1 ∨ (a.1 = b.1 ∧ b.2 ≤ a.2)) ?_
    (conv l (fun r hr => hpl r (hp.mem_iff.mp hr)) h1) (conv l' hpl h2) (hp.map _)
  intro a b _ _ h1 h2
  apply Prod.ext <;> omega

theorem sorted_width {l l' : List Rect} (hp : l.Perm l') (hpl : ∀ r ∈ l', Plain r)
    (h1 : l.Pairwise fun a b => widthCmp a b ≤ 0) (h2 : l'.Pairwise fun a b => widthCmp a b ≤ 0) :
    l.map Rect.dims = l'.map Rect.dims := by
  have h := sorted_keys (f := (·.width)) (fun r h => ⟨Int.le_of_lt h.small.w, h.small.w'⟩) hp hpl h1 h2
  have e : ∀ l : List Rect, (∀ r ∈ l, Plain r) →
      l.map Rect.dims = (l.map (fun r => (r.width, r.area))).map (fun p => (p.1, p.2 / p.1)) := by
    intro l hl
    rw [List.map_map]
    refine List.map_congr_left (fun r hr => ?_)
    have := (hl r hr).small.w
    show (r.width, r.height) = (r.width, r.area / r.width)
    rw [(hl r hr).area, Int.mul_ediv_cancel_left _ (by omega)]
  rw [e l (fun r hr => hpl r (hp.mem_iff.mp hr)), e l' hpl, h]

theorem sorted_height {l l' : List Rect} (hp : l.Perm l') (hpl : ∀ r ∈ l', Plain r)
    (h1 : l.Pairwise fun a b => heightCmp a b ≤ 0) (h2 : l'.Pairwise fun a b => heightCmp a b ≤ 0) :
    l.map Rect.dims = l'.map Rect.dims := by
  have h := sorted_keys (f := (·.height)) (fun r h => ⟨Int.le_of_lt h.small.h, h.small.h'⟩) hp hpl h1 h2
  have e : ∀ l : List Rect, (∀ r ∈ l, Plain r) →
      l.map Rect.dims = (l.map (fun r => (r.height, r.area))).map (fun p => (p.2 / p.1, p.1)) := by
    intro l hl
    rw [List.map_map]
    refine List.map_congr_left (fun r hr => ?_)
    have := (hl r hr).small.h
    show (r.width, r.height) = (r.area / r.height, r.height)
    rw [(hl r hr).area, Int.mul_ediv_cancel _ (by omega)]
  rw [e l (fun r hr => hpl r (hp.mem_iff.mp hr)), e l' hpl, h]

theorem turn_turn_map (l : List Rect) : (l.map Rect.turn).map Rect.turn = l := by
  rw [List.map_map]
  have : Rect.turn ∘ Rect.turn = id := rfl
  rw [this, List.map_id]

theorem order_perm {q : Qsort} (hq : Sorts q) (R : List Rect) {k : Nat} (hk : 1 ≤ k) :
    (order q R k).Perm (if k ≤ 2 then R else R.map Rect.turn) := by
  have p1 : (order q R 1).Perm R := (hq _ heightCmp_consistent _).1
  have p2 : (order q R 2).Perm R := (hq _ widthCmp_consistent _).1.trans p1
  have p3 : (order q R 3).Perm (R.map Rect.turn) := p2.map _
  have p4 : (order q R 4).Perm (R.map Rect.turn) := (hq _ widthCmp_consistent _).1.trans p3
  rcases (by omega : k = 1 ∨ k = 2 ∨ k = 3 ∨ 4 ≤ k) with rfl | rfl | rfl | h4
  · exact p1
  · exact p2
  · exact p3
  · rw [if_neg (by omega)]
    obtain ⟨j, rfl⟩ := Nat.exists_eq_add_of_le h4
    rw [Nat.add_comm]
    exact p4

theorem final_perm {q : Qsort} (hq : Sorts q) (R : List Rect) (k : Nat) :
    (final q R k).Perm (if k = 1 ∨ k = 2 then R else R.map Rect.turn) := by
  have p4 : (order q R 4).Perm (R.map Rect.turn) := order_perm hq R (k := 4) (by omega)
  have p4' : ((order q R 4).map Rect.turn).Perm R := by
    have := p4.map Rect.turn
    rwa [turn_turn_map] at this
  rcases (by omega : k = 0 ∨ k = 1 ∨ k = 2 ∨ k = 3 ∨ 4 ≤ k) with rfl | rfl | rfl | rfl | h4
  · exact p4
  · exact p4'
  · exact (hq _ widthCmp_consistent _).1.trans p4'
  · exact (hq _ heightCmp_consistent _).1.trans p4
  · rw [if_neg (by omega)]
    obtain ⟨j, rfl⟩ := Nat.exists_eq_add_of_le h4
    rw [Nat.add_comm]
    exact p4

/-- The final packing goes through rectangles of the same sizes as the search it follows. -/
theorem final_dims {q : Qsort} (hq : Sorts q) {R : List Rect} (hR : ∀ r ∈ R, Plain r) {k : Nat} (hk : 1 ≤ k ∧ k ≤ 4) :
    (final q R k).map Rect.dims = (order q R k).map Rect.dims := by
  have pf := final_perm hq R k
  have po := order_perm hq R hk.1
  have turned : ∀ l : List Rect, (l.Pairwise fun a b => widthCmp a b ≤ 0) →
      (l.map Rect.turn).Pairwise fun a b => heightCmp a b ≤ 0 := by
    intro l h
    rw [List.pairwise_map]
    exact h
  have hT : ∀ r ∈ R.map Rect.turn, Plain r := by
    intro r hr
    obtain ⟨a, ha, rfl⟩ := List.mem_map.mp hr
    exact (hR a ha).turn
  have s2 := (hq _ widthCmp_consistent (q heightCmp R)).2
  have s4 := (hq _ widthCmp_consistent ((q widthCmp (q heightCmp R)).map Rect.turn)).2
  rcases (by omega : k = 1 ∨ k = 2 ∨ k = 3 ∨ k = 4) with rfl | rfl | rfl | rfl
  · exact sorted_height (pf.trans po.symm) (fun r hr => hR r (po.mem_iff.mp hr)) (turned _ s4)
      (hq _ heightCmp_consistent R).2
  · exact sorted_width (pf.trans po.symm) (fun r hr => hR r (po.mem_iff.mp hr)) (hq _ widthCmp_consistent _).2 s2
  · exact sorted_height (pf.trans po.symm) (fun r hr => hT r (po.mem_iff.mp hr)) (hq _ heightCmp_consistent _).2
      (turned _ s2)
  · rfl

/-- The first try of a search succeeds if the box allows to put all rectangles beside each other. -/
theorem searchBox_first {g : Grid} {s : RSet} {b : Box} (hs : ∀ r ∈ s.rects, Small r) (hne : s.rects ≠ []) (hS : s.Sums)
    (hg : Sane g) (hn : g.size = s.rects.length + 1) (hw : b.minWidth = s.maxWidth) (hh : b.minHeight = s.maxHeight)
    (hba : s.maxHeight * s.sumWidth < b.maxArea - 1) (hbx : s.sumWidth ≤ b.maxWidth) (hby : s.maxHeight ≤ b.maxHeight) :
    ∃ g' w h, g.searchBox false s b = .ok (g', w, h) ∧ 0 < w * h ∧ w * h ≤ s.maxHeight * s.sumWidth := by
  obtain ⟨b1, b2, b3, b4⟩ := hS.bounds hne hs
  have hprod : 0 ≤ s.maxHeight * s.sumWidth := Int.mul_nonneg (by omega) (by omega)
  obtain ⟨g', ok, h1, h2, h3, h4, h5, h6, h7⟩ := search_spec (b := b) hs hne hg hn (by omega) (by omega) (by omega)
    (by omega) (by omega)
  have hm : s.sumWidth ≤ b.maxArea.tdiv b.minHeight := by
    rw [Int.tdiv_eq_ediv_of_nonneg (by omega), hh]
    rw [Int.le_ediv_iff_mul_le (by omega), Int.mul_comm]
    omega
  have hmin : s.sumWidth ≤ min (b.maxArea.tdiv b.minHeight) b.maxWidth := by omega
  obtain ⟨g1, d1, gw, k1, k2⟩ := placeAll_all s.rects
    ({ g with width := min (b.maxArea.tdiv b.minHeight) b.maxWidth, height := b.minHeight } : Grid).clear [] b.maxHeight 0 0
    (clear_inv (g := { g with width := min (b.maxArea.tdiv b.minHeight) b.maxWidth, height := b.minHeight })
      ⟨hg.cols, hg.rows, hg.pos⟩ (by simp only; omega) (by simp only; omega)) hs (by show 1 ≤ _; simp) (by show 1 ≤ _; simp)
    (by show 0 + s.rects.length + 1 ≤ g.size; omega) (Int.le_refl _) (Int.le_refl _) (Or.inl rfl) (by simp)
    (by
      rw [← hS.sw]
      show 0 + s.sumWidth ≤ min (b.maxArea.tdiv b.minHeight) b.maxWidth
      omega)
    (by
      intro r hr
      show r.height ≤ b.minHeight
      rw [hh]
      exact hS.mh r hr)
  rw [← hS.sw] at k2
  have hle : b.minHeight * gw ≤ s.maxHeight * s.sumWidth := by
    rw [hh]
    exact Int.mul_le_mul_of_nonneg_left (by omega) (by omega)
  obtain ⟨m1, m2⟩ := h7 g1 d1 gw _ rfl (by omega) (by omega) k1 (by omega)
  obtain ⟨n1, -⟩ := h6 m1
  unfold Grid.searchBox
  rw [if_neg (by omega), if_neg (by simp [hw]), if_neg (by simp [hh]), h1]
  refine ⟨g', g'.width, g'.height, ?_, Int.mul_pos n1 h4, by omega⟩
  rw [m1]
  rfl

/-- The positions that `pack` returns are a packing, in a box whose sides are bounded by the limits. -/
theorem corePack_spec {q : Qsort} (hq : Sorts q) {sizes : List (Int × Int)} (hne : sizes ≠ [])
    (hn : sizes.length ≤ 2 ^ 31) (hs : ∀ p ∈ sizes, 0 < p.1 ∧ 0 < p.2 ∧ p.1 < 2 ^ 31 ∧ p.2 < 2 ^ 31) {maxWidth maxHeight : Int} :
    (∃ l, corePack false q sizes maxWidth maxHeight = .error (.impossible l)) ∨
    ∃ pos, corePack false q sizes maxWidth maxHeight = .ok pos ∧ Packing sizes pos ∧
      (0 ≤ maxWidth → ∀ r ∈ place sizes pos, r.x + r.w ≤ maxWidth) ∧
      (0 ≤ maxHeight → ∀ r ∈ place sizes pos, r.y + r.h ≤ maxHeight) := by
  obtain ⟨s, h1, h2, h3, h4⟩ := corePack_run hq hne hs (maxWidth := maxWidth) (maxHeight := maxHeight)
  rcases h4 with ⟨e, h4, h5⟩ | ⟨mw, mh, c, g, t, l1, l2, hc, hg, hsz, ht, hrun, -⟩
  · left
    rw [h4]
    have key : ∀ {a b d : Int}, limit a b d = .error e → e = .impossible [] := by
      intro a b d h
      unfold limit at h
      split at h
      · cases h
      · split at h
        · cases h; rfl
        · split at h
          · cases h; rfl
          · cases h
    rcases h5 with h5 | h5
    · exact ⟨[], by rw [key h5]⟩
    · exact ⟨[], by rw [key h5]⟩
  · have hsm : ∀ r ∈ s.rects, Small r := by
      intro r hr
      rw [h3] at hr
      obtain ⟨⟨p, i⟩, hp, rfl⟩ := List.mem_map.mp hr
      have := hs p (List.fst_mem_of_mem_zipIdx hp)
      exact ⟨this.1, this.2.1, this.2.2.1, this.2.2.2⟩
    have hRne : s.rects ≠ [] := by
      rw [h3]
      simpa using hne
    obtain ⟨b1, b2, b3, b4⟩ := h2.bounds hRne hsm
    have k1 := limit_ok l1 b3
    have k2 := limit_ok l2 b4
    have hp := final_perm hq s.rects c.case
    rw [← ht, h3] at hp
    have hs' : ∀ p ∈ sizes, 0 < p.1 ∧ 0 < p.2 := fun p h => ⟨(hs p h).1, (hs p h).2.1⟩
    by_cases hcase : c.case = 1 ∨ c.case = 2
    · rw [if_pos hcase] at hrun hp
      obtain ⟨p1, p2, -, -⟩ := hc.box (by omega)
      obtain ⟨s1, s2⟩ := hc.straight hcase
      obtain ⟨done, rest, -, f⟩ := finish_spec (turned := false) hq hn hs' hg hsz p1 p2 hp
      rw [hrun]
      rcases f with ⟨-, -, l, f⟩ | ⟨-, pos, f1, f2, f3⟩
      · exact Or.inl ⟨l, f⟩
      · refine Or.inr ⟨pos, f1, f2, fun h r hr => ?_, fun h r hr => ?_⟩
        · have := (f3 r hr).1
          simp only [Bool.false_eq_true, if_false] at this
          omega
        · have := (f3 r hr).2
          simp only [Bool.false_eq_true, if_false] at this
          omega
    · rw [if_neg hcase] at hrun hp
      have box : ∃ W H, 0 < W ∧ 0 < H ∧ W ≤ mh ∧ H ≤ mw ∧ corePack false q sizes maxWidth maxHeight = finish q g t W H true := by
        by_cases h0 : c.case = 0
        · rw [if_pos h0] at hrun
          exact ⟨mh, mw, by omega, by omega, by omega, by omega, hrun⟩
        · rw [if_neg h0] at hrun
          obtain ⟨p1, p2, -, -⟩ := hc.box h0
          have := hc.le
          obtain ⟨s1, s2⟩ := hc.turned (by omega)
          exact ⟨c.w, c.h, p1, p2, s1, s2, hrun⟩
      obtain ⟨W, H, p1, p2, s1, s2, hrun⟩ := box
      obtain ⟨done, rest, -, f⟩ := finish_spec (turned := true) hq hn hs' hg hsz p1 p2 hp
      rw [hrun]
      rcases f with ⟨-, -, l, f⟩ | ⟨-, pos, f1, f2, f3⟩
      · exact Or.inl ⟨l, f⟩
      · refine Or.inr ⟨pos, f1, f2, fun h r hr => ?_, fun h r hr => ?_⟩
        · have := (f3 r hr).1
          simp only [if_true] at this
          omega
        · have := (f3 r hr).2
          simp only [if_true] at this
          omega

/-- A choice that has been made leads to a packing in its box. -/
theorem corePack_done {q : Qsort} (hq : Sorts q) {sizes : List (Int × Int)} (hn : sizes.length ≤ 2 ^ 31)
    (hs : ∀ p ∈ sizes, 0 < p.1 ∧ 0 < p.2) {s : RSet} (h3 : s.rects = sizes.zipIdx.map fresh) (hpl : ∀ r ∈ s.rects, Plain r)
    {mw mh : Int} {c : Choice} {g : Grid} {t : RSet} {R : Except Err (List (Int × Int))}
    (hc : Chosen (sizes.length + 1) mw mh (order q s.rects) c) (hg : Sane g) (hsz : g.size = sizes.length + 1)
    (ht : t.rects = final q s.rects c.case)
    (hrun : R = (if c.case = 1 ∨ c.case = 2 then finish q g t c.w c.h false
          else if c.case = 0 then finish q g t mh mw true else finish q g t c.w c.h true)) (n1 : c.case ≠ 0) :
    ∃ pos W H, R = .ok pos ∧ (∀ r ∈ place sizes pos, r.x + r.w ≤ W ∧ r.y + r.h ≤ H) ∧ W * H = c.area := by
  have hlen : s.rects.length = sizes.length := by rw [h3]; simp
  obtain ⟨q1, q2, q3, W, q4, q5⟩ := hc.box n1
  have hle := hc.le
  have hd := final_dims hq hpl (k := c.case) (by omega)
  rw [← ht] at hd
  have hperm := final_perm hq s.rects c.case
  rw [← ht, h3] at hperm
  have hos : ∀ r ∈ order q s.rects c.case, Small r := by
    intro r hr
    have hr := (order_perm hq s.rects (k := c.case) (by omega)).mem_iff.mp hr
    split at hr
    · exact (hpl r hr).small
    · obtain ⟨a, ha, rfl⟩ := List.mem_map.mp hr
      exact (hpl a ha).turn.small
  have hol : (order q s.rects c.case).length = sizes.length := by
    rw [(order_perm hq s.rects (k := c.case) (by omega)).length_eq]
    split <;> simp [hlen]
  obtain ⟨done', r1, r2⟩ := replay_ran hd q5 hos q1 q2 q4 (by omega) hg hsz
  have result : ∀ turned : Bool, (if c.case = 1 ∨ c.case = 2 then false else true) = turned →
      ∃ pos, R = .ok pos ∧
      ∀ r ∈ place sizes pos, r.x + r.w ≤ (if turned then c.h else c.w) ∧ r.y + r.h ≤ (if turned then c.w else c.h) := by
    intro turned hturn
    have e1 : R = finish q g t c.w c.h turned := by
      rw [hrun, if_neg n1]
      by_cases hcase : c.case = 1 ∨ c.case = 2
      · rw [if_pos hcase] at hturn ⊢; rw [← hturn]
      · rw [if_neg hcase] at hturn ⊢; rw [← hturn]
    have e2 : t.rects.Perm (if turned then (sizes.zipIdx.map fresh).map Rect.turn else sizes.zipIdx.map fresh) := by
      by_cases hcase : c.case = 1 ∨ c.case = 2
      · rw [if_pos hcase] at hturn hperm; rw [← hturn]; exact hperm
      · rw [if_neg hcase] at hturn hperm; rw [← hturn]; exact hperm
    obtain ⟨done, rest, r3, f⟩ := finish_spec hq hn hs hg hsz q1 q2 e2
    rw [r1] at r3
    rcases f with ⟨-, ⟨r, hr, hx⟩, -⟩ | ⟨-, pos, f1, -, f3⟩
    · have := r2 r (by
        cases r3
        exact List.mem_append.mpr (Or.inr hr))
      omega
    · exact ⟨pos, by rw [e1, f1], f3⟩
  obtain ⟨pos, g1, g2⟩ := result _ rfl
  refine ⟨pos, _, _, g1, g2, ?_⟩
  by_cases hcase : c.case = 1 ∨ c.case = 2
  · simp only [if_pos hcase]
    simp only [Bool.false_eq_true, if_false]
    omega
  · simp only [if_neg hcase, if_true]
    rw [Int.mul_comm]
    omega

theorem make_sums {sizes : List (Int × Int)} {s : RSet} (hne : sizes ≠ []) (hs : ∀ p ∈ sizes, 0 < p.1 ∧ 0 < p.2) (h2 : s.Sums)
    (h3 : s.rects = sizes.zipIdx.map fresh) :
    s.sumWidth = (sizes.map (·.1)).sum ∧ s.sumHeight = (sizes.map (·.2)).sum ∧
      (∃ p ∈ sizes, s.maxWidth = p.1) ∧ (∃ p ∈ sizes, s.maxHeight = p.2) ∧
      ∀ p ∈ sizes, p.1 ≤ s.maxWidth ∧ p.2 ≤ s.maxHeight := by
  have mem : ∀ p ∈ sizes, ∃ r ∈ s.rects, r.width = p.1 ∧ r.height = p.2 := by
    intro p hp
    obtain ⟨i, hi, rfl⟩ := List.mem_iff_getElem.mp hp
    rw [h3]
    exact ⟨_, List.mem_map_of_mem (f := fresh) (a := (sizes[i], i)) (by
      rw [List.mem_zipIdx_iff_getElem?]
      simp), rfl, rfl⟩
  have low : ∀ p ∈ sizes, p.1 ≤ s.maxWidth ∧ p.2 ≤ s.maxHeight := by
    intro p hp
    obtain ⟨r, hr, e1, e2⟩ := mem p hp
    rw [← e1, ← e2]
    exact ⟨h2.mw r hr, h2.mh r hr⟩
  obtain ⟨p0, hp0⟩ := List.exists_mem_of_ne_nil _ hne
  have l0 := low p0 hp0
  have s0 := hs p0 hp0
  refine ⟨?_, ?_, ?_, ?_, low⟩
  · rw [h2.sw, h3, List.map_map]
    have : ((fun r : Rect => r.width) ∘ fresh) = (fun p : Int × Int => p.1) ∘ Prod.fst := rfl
    rw [this, ← List.map_map, List.zipIdx_map_fst]
  · rw [h2.sh, h3, List.map_map]
    have : ((fun r : Rect => r.height) ∘ fresh) = (fun p : Int × Int => p.2) ∘ Prod.fst := rfl
    rw [this, ← List.map_map, List.zipIdx_map_fst]
  · rcases h2.mw' with e | ⟨r, hr, e⟩
    · omega
    · rw [h3] at hr
      obtain ⟨⟨p, i⟩, hp, rfl⟩ := List.mem_map.mp hr
      exact ⟨p, List.fst_mem_of_mem_zipIdx hp, e⟩
  · rcases h2.mh' with e | ⟨r, hr, e⟩
    · omega
    · rw [h3] at hr
      obtain ⟨⟨p, i⟩, hp, rfl⟩ := List.mem_map.mp hr
      exact ⟨p, List.fst_mem_of_mem_zipIdx hp, e⟩

/-- With at most one limit, and with sizes small enough, `pack` succeeds; the box is not larger than the one with the
rectangles beside each other, if the width is not limited, and hardly larger than the one with the rectangles above each
other, if the height is not limited. -/
theorem corePack_total {q : Qsort} (hq : Sorts q) {sizes : List (Int × Int)} (hne : sizes ≠ [])
    (hn : sizes.length ≤ 2 ^ 31) (hs : ∀ p ∈ sizes, 0 < p.1 ∧ 0 < p.2 ∧ p.1 < 2 ^ 31 ∧ p.2 < 2 ^ 31 ∧ p.1 * p.2 < 2 ^ 31)
    {maxWidth maxHeight : Int}
    (hw : 0 ≤ maxWidth → 0 < maxWidth ∧ ∀ p ∈ sizes, p.1 ≤ maxWidth) (hh : 0 ≤ maxHeight → 0 < maxHeight ∧ ∀ p ∈ sizes, p.2 ≤ maxHeight)
    (hone : (maxWidth < 0 ∧ ∀ p ∈ sizes, p.2 * (sizes.map (·.1)).sum < 2 ^ 63 - 2) ∨
      (maxHeight < 0 ∧ ∀ p ∈ sizes, p.1 * (sizes.map (·.2)).sum < 2 ^ 63 - 2)) :
    ∃ pos W H, corePack false q sizes maxWidth maxHeight = .ok pos ∧
      (∀ r ∈ place sizes pos, r.x + r.w ≤ W ∧ r.y + r.h ≤ H) ∧
      (maxWidth < 0 → (∀ p ∈ sizes, p.2 * (sizes.map (·.1)).sum < 2 ^ 63 - 2) →
        ∃ p ∈ sizes, W * H ≤ p.2 * (sizes.map (·.1)).sum) ∧
      (maxHeight < 0 → (∀ p ∈ sizes, p.1 * (sizes.map (·.2)).sum < 2 ^ 63 - 2) →
        ∃ p ∈ sizes, W * H ≤ p.1 * (sizes.map (·.2)).sum + 1) := by
  obtain ⟨s, h1, h2, h3, h4⟩ := corePack_run hq hne (fun p hp => ⟨(hs p hp).1, (hs p hp).2.1, (hs p hp).2.2.1, (hs p hp).2.2.2.1⟩)
    (maxWidth := maxWidth) (maxHeight := maxHeight)
  have hs' : ∀ p ∈ sizes, 0 < p.1 ∧ 0 < p.2 := fun p h => ⟨(hs p h).1, (hs p h).2.1⟩
  have hlen : s.rects.length = sizes.length := by rw [h3]; simp
  have hpl : ∀ r ∈ s.rects, Plain r := by
    intro r hr
    rw [h3] at hr
    obtain ⟨⟨p, i⟩, hp, rfl⟩ := List.mem_map.mp hr
    have := hs p (List.fst_mem_of_mem_zipIdx hp)
    exact ⟨⟨this.1, this.2.1, this.2.2.1, this.2.2.2.1⟩, rfl, this.2.2.2.2⟩
  have hRne : s.rects ≠ [] := by
    rw [h3]
    simpa using hne
  obtain ⟨b1, b2, b3, b4⟩ := h2.bounds hRne (fun r hr => (hpl r hr).small)
  obtain ⟨m1, m2, ⟨pw, hpw, m3⟩, ⟨ph, hph, m4⟩, m5⟩ := make_sums hne hs' h2 h3
  have hlw : ∃ mw, limit maxWidth s.sumWidth s.maxWidth = .ok mw := by
    unfold limit
    by_cases h : maxWidth < 0
    · exact ⟨_, if_pos h⟩
    · obtain ⟨x, y⟩ := hw (by omega)
      have := y pw hpw
      rw [if_neg h, if_neg (by omega), if_neg (by omega)]
      exact ⟨_, rfl⟩
  have hlh : ∃ mh, limit maxHeight s.sumHeight s.maxHeight = .ok mh := by
    unfold limit
    by_cases h : maxHeight < 0
    · exact ⟨_, if_pos h⟩
    · obtain ⟨x, y⟩ := hh (by omega)
      have := y ph hph
      rw [if_neg h, if_neg (by omega), if_neg (by omega)]
      exact ⟨_, rfl⟩
  rcases h4 with ⟨e, h4, h5⟩ | ⟨mw, mh, c, g, t, l1, l2, hc, hg, hsz, ht, hrun, ⟨g1, w1, h1', f1, f2⟩,
    g2, a, g3, w3, h3', t1, t2, t3, t4, t5, t6⟩
  · rcases h5 with h5 | h5
    · obtain ⟨_, e⟩ := hlw
      rw [e] at h5; cases h5
    · obtain ⟨_, e⟩ := hlh
      rw [e] at h5; cases h5
  have k1 := limit_ok l1 b3
  have k2 := limit_ok l2 b4
  have p1 : (s.byHeight q).rects.Perm s.rects := (hq _ heightCmp_consistent _).1
  have S1 : (s.byHeight q).Sums := h2.perm p1
  have first : maxWidth < 0 → (∀ p ∈ sizes, p.2 * (sizes.map (·.1)).sum < 2 ^ 63 - 2) →
      c.case ≠ 0 ∧ c.area ≤ s.maxHeight * s.sumWidth := by
    intro hmw hsum
    have hlim := hsum ph hph
    rw [← m4, ← m1] at hlim
    have hmw' := k1.2.1 hmw
    subst hmw'
    obtain ⟨g', w, h, k1, k2, k3⟩ := searchBox_first (g := Grid.alloc (sizes.length + 1)) (s := s.byHeight q)
      (b := ⟨s.maxWidth, s.sumWidth, s.maxHeight, mh, longMax⟩)
      (fun r hr => (hpl r (p1.mem_iff.mp hr)).small) (fun e => hRne (by rw [e] at p1; exact p1.symm.eq_nil)) S1
      ⟨rfl, rfl, by show 1 ≤ sizes.length + 1; omega⟩ (by rw [p1.length_eq, hlen]; rfl) rfl rfl
      (by show s.maxHeight * s.sumWidth < longMax - 1; simp only [longMax]; omega) (Int.le_refl _)
      (by show s.maxHeight ≤ mh; omega)
    change w * h ≤ s.maxHeight * s.sumWidth at k3
    rw [k1] at f1
    cases f1
    obtain ⟨n1, n2⟩ := f2 ⟨k2, by simp only [longMax]; omega⟩
    exact ⟨n1, by omega⟩
  have p2 : ((s.byHeight q).byWidth q).rects.Perm s.rects := ((hq _ widthCmp_consistent _).1).trans p1
  have S3 : ((s.byHeight q).byWidth q).rotate.Sums := (S1.perm (hq _ widthCmp_consistent _).1).rotate
  have p3 : ((s.byHeight q).byWidth q).rotate.rects.Perm (s.rects.map Rect.turn) := p2.map Rect.turn
  have third : maxHeight < 0 → (∀ p ∈ sizes, p.1 * (sizes.map (·.2)).sum < 2 ^ 63 - 2) →
      c.case ≠ 0 ∧ c.area ≤ s.maxWidth * s.sumHeight + 1 := by
    intro hmh hsum
    have hlim := hsum pw hpw
    rw [← m3, ← m2] at hlim
    have hmh' := k2.2.1 hmh
    subst hmh'
    by_cases hbig : s.maxWidth * s.sumHeight < a - 1
    · obtain ⟨g', w, h, k1, k2, k3⟩ := searchBox_first (g := g2) (s := ((s.byHeight q).byWidth q).rotate)
        (b := ⟨s.maxHeight, s.sumHeight, s.maxWidth, mw, a⟩)
        (fun r hr => by
          obtain ⟨a, ha, rfl⟩ := List.mem_map.mp (p3.mem_iff.mp hr)
          exact (hpl a ha).turn.small)
        (fun e => hRne (by rw [e] at p3; exact List.map_eq_nil_iff.mp p3.symm.eq_nil)) S3
        t1 (by rw [p3.length_eq, t2, List.length_map, hlen]) rfl rfl
        hbig (Int.le_refl _)
        (by show s.maxWidth ≤ mw; omega)
      change w * h ≤ s.maxWidth * s.sumHeight at k3
      rw [k1] at t5
      cases t5
      obtain ⟨n1, n2⟩ := t6 ⟨k2, by omega⟩
      exact ⟨n1, by omega⟩
    · refine ⟨?_, by omega⟩
      rcases t3 with t3 | t3
      · rw [t3] at hbig
        simp only [longMax] at hbig
        omega
      · exact t3
  have n1 : c.case ≠ 0 := by
    rcases hone with ⟨x, y⟩ | ⟨x, y⟩
    · exact (first x y).1
    · exact (third x y).1
  obtain ⟨pos, W, H, r1, r2, r3⟩ := corePack_done hq hn hs' h3 hpl hc hg hsz ht hrun n1
  refine ⟨pos, W, H, r1, r2, fun x y => ⟨ph, hph, ?_⟩, fun x y => ⟨pw, hpw, ?_⟩⟩
  · rw [← m4, ← m1, r3]
    exact (first x y).2
  · rw [← m3, ← m2, r3]
    exact (third x y).2

end Pack
end MM
