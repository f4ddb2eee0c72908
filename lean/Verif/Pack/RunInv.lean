import Verif.Pack.PackInv
import Verif.Pack.SortInv

/-! What `pack` of the rectangle packer does: the four searches and the final packing. -/

namespace MM
namespace Pack

open Spec.Pack

/-- What a search tells `pack`. -/
theorem searchBox_spec {g : Grid} {s : RSet} {b : Box} (hs : ∀ r ∈ s.rects, Small r) (hne : s.rects ≠ []) (hg : Sane g)
    (hn : g.size = s.rects.length + 1) (hw : b.minWidth = s.maxWidth) (hh : b.minHeight = s.maxHeight)
    (hb : 1 ≤ b.maxHeight) (hbw : 1 ≤ b.minWidth) (hbh : 1 ≤ b.minHeight) (hba : 1 ≤ b.maxArea) (hbx : 0 ≤ b.maxWidth) :
    ∃ g' w h, g.searchBox false s b = .ok (g', w, h) ∧ Sane g' ∧ g'.size = g.size ∧
      (0 < w * h → 0 < w ∧ 0 < h ∧ h ≤ b.maxHeight ∧ w ≤ b.maxWidth ∧
        ∃ W, w ≤ W ∧ Ran g.size s.rects W w h) := by
  obtain ⟨g', ok, h1, h2, h3, h4, h5, h6, h7⟩ := search_spec hs hne hg hn hb hbw hbh hba hbx
  unfold Grid.searchBox
  rw [if_neg (by omega), if_neg (by simp [hw]), if_neg (by simp [hh]), h1]
  cases ok with
  | false =>
    refine ⟨g', g'.width, -g'.height, rfl, h2, h3, ?_⟩
    intro hp
    have : 0 ≤ g'.width * g'.height := Int.mul_nonneg h5 (by omega)
    have e : g'.width * -g'.height = -(g'.width * g'.height) := Int.mul_neg _ _
    omega
  | true =>
    obtain ⟨k1, k2, k3, W, k4, k5, k6⟩ := h6 rfl
    exact ⟨g', g'.width, g'.height, rfl, h2, h3, fun _ => ⟨k1, h4, k2, by omega, W, k4, k6⟩⟩

theorem Rect.turn_turn (r : Rect) : r.turn.turn = r := rfl

/-- The box chosen so far is small enough, and a search over `rs` of the case has found it. -/
structure Chosen (n : Nat) (mw mh : Int) (rs : Nat → List Rect) (c : Choice) : Prop where
  area : 1 ≤ c.area
  le : c.case ≤ 4
  box : c.case ≠ 0 → 0 < c.w ∧ 0 < c.h ∧ c.area = c.w * c.h ∧ ∃ W, c.w ≤ W ∧ Ran n (rs c.case) W c.w c.h
  straight : c.case = 1 ∨ c.case = 2 → c.w ≤ mw ∧ c.h ≤ mh
  turned : c.case = 3 ∨ c.case = 4 → c.w ≤ mh ∧ c.h ≤ mw

theorem Chosen.update {n : Nat} {mw mh : Int} {rs : Nat → List Rect} {c : Choice} (hc : Chosen n mw mh rs c) {w h : Int}
    {k : Nat} (hk : 1 ≤ k ∧ k ≤ 4)
    (hf : 0 < w * h → 0 < w ∧ 0 < h ∧ ∃ W, w ≤ W ∧ Ran n (rs k) W w h)
    (h1 : 0 < w * h → k = 1 ∨ k = 2 → w ≤ mw ∧ h ≤ mh) (h2 : 0 < w * h → k = 3 ∨ k = 4 → w ≤ mh ∧ h ≤ mw) :
    Chosen n mw mh rs (c.update w h k) := by
  unfold Choice.update
  split
  · rename_i hp
    obtain ⟨p, _⟩ := hp
    obtain ⟨a, b, d⟩ := hf p
    exact ⟨by simp only; omega, hk.2, fun _ => ⟨a, b, rfl, d⟩, h1 p, h2 p⟩
  · exact hc

/-- The result of `limit`. -/
theorem limit_ok {given total least m : Int} (h : limit given total least = .ok m) (ht : least ≤ total) :
    least ≤ m ∧ (given < 0 → m = total) ∧ (0 ≤ given → m = given) := by
  unfold limit at h
  split at h
  · cases h; omega
  · split at h
    · cases h
    · split at h
      · cases h
      · cases h; omega

theorem limit_none {given total least : Int} (h : given < 0) : limit given total least = .ok total := by
  unfold limit
  rw [if_pos h]

/-- The largest of positive numbers is at most their sum. -/
theorem le_sum_int {l : List Int} (hp : ∀ a ∈ l, 0 < a) : ∀ a ∈ l, a ≤ l.sum := by
  induction l with
  | nil => simp
  | cons b l ih =>
    intro a ha
    have h0 : 0 ≤ l.sum := by
      clear ih ha
      induction l with
      | nil => simp
      | cons c l ih =>
        have := ih (fun a ha => hp a (by simp at ha ⊢; tauto))
        have := hp c (by simp)
        simp only [List.sum_cons]; omega
    have hb := hp b (by simp)
    simp only [List.sum_cons]
    rcases List.mem_cons.mp ha with rfl | ha
    · omega
    · have := ih (fun a ha => hp a (by simp [ha])) a ha
      omega

theorem RSet.Sums.bounds {s : RSet} (h : s.Sums) (hne : s.rects ≠ []) (hp : ∀ r ∈ s.rects, Small r) :
    1 ≤ s.maxWidth ∧ 1 ≤ s.maxHeight ∧ s.maxWidth ≤ s.sumWidth ∧ s.maxHeight ≤ s.sumHeight := by
  obtain ⟨r, hr⟩ := List.exists_mem_of_ne_nil _ hne
  have a := h.mw r hr
  have b := h.mh r hr
  have c := hp r hr
  have c1 := c.w
  have c2 := c.h
  refine ⟨by omega, by omega, ?_, ?_⟩
  · rcases h.mw' with e | ⟨r', hr', e⟩
    · omega
    · rw [e, h.sw]
      exact le_sum_int (by
        intro a ha
        obtain ⟨b, hb, rfl⟩ := List.mem_map.mp ha
        exact (hp b hb).w) _ (List.mem_map_of_mem (f := fun r : Rect => r.width) hr')
  · rcases h.mh' with e | ⟨r', hr', e⟩
    · omega
    · rw [e, h.sh]
      exact le_sum_int (by
        intro a ha
        obtain ⟨b, hb, rfl⟩ := List.mem_map.mp ha
        exact (hp b hb).h) _ (List.mem_map_of_mem (f := fun r : Rect => r.height) hr')

/-- The lists that the four searches go through. -/
def order (q : Qsort) (R : List Rect) : Nat → List Rect
  | 0 => []
  | 1 => q heightCmp R
  | 2 => q widthCmp (q heightCmp R)
  | 3 => (q widthCmp (q heightCmp R)).map Rect.turn
  | _ => q widthCmp ((q widthCmp (q heightCmp R)).map Rect.turn)

/-- The lists of the final packing. -/
def final (q : Qsort) (R : List Rect) : Nat → List Rect
  | 1 => (order q R 4).map Rect.turn
  | 2 => q widthCmp ((order q R 4).map Rect.turn)
  | 3 => q heightCmp (order q R 4)
  | _ => order q R 4

/-- The part of `pack` after the searches. -/
def finish (q : Qsort) (g : Grid) (s : RSet) (W H : Int) (turned : Bool) : Except Err (List (Int × Int)) := do
  let s ← g.pack s W H
  (if turned then s.transpose else s).positions q

/-- What `pack` does for positive sizes that fit in an `int`: after the searches it packs into the box of a choice. -/
theorem corePack_run {q : Qsort} (hq : Sorts q) {sizes : List (Int × Int)} (hne : sizes ≠ [])
    (hs : ∀ p ∈ sizes, 0 < p.1 ∧ 0 < p.2 ∧ p.1 < 2 ^ 31 ∧ p.2 < 2 ^ 31) {maxWidth maxHeight : Int} :
    ∃ s, RSet.make sizes = .ok s ∧ s.Sums ∧ s.rects = sizes.zipIdx.map fresh ∧
      ((∃ e, corePack false q sizes maxWidth maxHeight = .error e ∧
        (limit maxWidth s.sumWidth s.maxWidth = .error e ∨ limit maxHeight s.sumHeight s.maxHeight = .error e)) ∨
      ∃ mw mh c g t, limit maxWidth s.sumWidth s.maxWidth = .ok mw ∧ limit maxHeight s.sumHeight s.maxHeight = .ok mh ∧
        Chosen (sizes.length + 1) mw mh (order q s.rects) c ∧ Sane g ∧ g.size = sizes.length + 1 ∧
        t.rects = final q s.rects c.case ∧
        corePack false q sizes maxWidth maxHeight =
          (if c.case = 1 ∨ c.case = 2 then finish q g t c.w c.h false
          else if c.case = 0 then finish q g t mh mw true else finish q g t c.w c.h true) ∧
        (∃ g1 w1 h1, (Grid.alloc (sizes.length + 1)).searchBox false (s.byHeight q)
            ⟨s.maxWidth, mw, s.maxHeight, mh, longMax⟩ = .ok (g1, w1, h1) ∧
          (0 < w1 * h1 ∧ w1 * h1 < longMax → c.case ≠ 0 ∧ c.area ≤ w1 * h1)) ∧
        ∃ g2 a g3 w3 h3, Sane g2 ∧ g2.size = sizes.length + 1 ∧ (a = longMax ∨ c.case ≠ 0) ∧ c.area ≤ a ∧
          g2.searchBox false ((s.byHeight q).byWidth q).rotate ⟨s.maxHeight, mh, s.maxWidth, mw, a⟩ = .ok (g3, w3, h3) ∧
          (0 < w3 * h3 ∧ w3 * h3 < a → c.case ≠ 0 ∧ c.area ≤ w3 * h3)) := by
  obtain ⟨s, h1, h2, h3⟩ := make_spec (sizes := sizes) (fun p hp => ⟨(hs p hp).1, (hs p hp).2.1⟩)
  refine ⟨s, h1, h2, h3, ?_⟩
  have hlen : s.rects.length = sizes.length := by rw [h3]; simp
  have hRne : s.rects ≠ [] := by
    intro e
    rw [e] at hlen
    exact hne (List.length_eq_zero_iff.mp hlen.symm)
  have hsm : ∀ r ∈ s.rects, Small r := by
    intro r hr
    rw [h3] at hr
    obtain ⟨⟨p, i⟩, hp, rfl⟩ := List.mem_map.mp hr
    have := hs p (List.fst_mem_of_mem_zipIdx hp)
    exact ⟨this.1, this.2.1, this.2.2.1, this.2.2.2⟩
  obtain ⟨b1, b2, b3, b4⟩ := h2.bounds hRne hsm
  have hcore : corePack false q sizes maxWidth maxHeight = (do
      let mw ← limit maxWidth s.sumWidth s.maxWidth
      let mh ← limit maxHeight s.sumHeight s.maxHeight
      let g := Grid.alloc (s.rects.length + 1)
      let c : Choice := ⟨longMax, mw, mh, 0⟩
      let s := s.byHeight q
      let (g, w, h) ← g.searchBox false s ⟨s.maxWidth, mw, s.maxHeight, mh, c.area⟩
      let c := c.update w h 1
      let s := s.byWidth q
      let (g, w, h) ← g.searchBox false s ⟨s.maxWidth, mw, s.maxHeight, mh, c.area⟩
      let c := c.update w h 2
      let s := s.rotate
      let (g, w, h) ← g.searchBox false s ⟨s.maxWidth, mh, s.maxHeight, mw, c.area⟩
      let c := c.update w h 3
      let s := s.byWidth q
      let (g, w, h) ← g.searchBox false s ⟨s.maxWidth, mh, s.maxHeight, mw, c.area⟩
      let c := c.update w h 4
      let (c, s) :=
        if c.case = 0 then ({ c with w := mh, h := mw }, s)
        else if c.case = 1 then (c, s.rotate)
        else if c.case = 2 then (c, s.rotate.byWidth q)
        else if c.case = 3 then (c, s.byHeight q)
        else (c, s)
      let s ← g.pack s c.w c.h
      (if c.case = 0 ∨ c.case = 3 ∨ c.case = 4 then s.transpose else s).positions q) := by
    unfold corePack
    rw [if_neg hne, h1]
    rfl
  cases hw : limit maxWidth s.sumWidth s.maxWidth with
  | error e =>
    rw [hw] at hcore
    exact Or.inl ⟨e, hcore, Or.inl rfl⟩
  | ok mw =>
    cases hh : limit maxHeight s.sumHeight s.maxHeight with
    | error e =>
      rw [hw, hh] at hcore
      exact Or.inl ⟨e, hcore, Or.inr rfl⟩
    | ok mh =>
      right
      have l1 := limit_ok hw b3
      have l2 := limit_ok hh b4
      rw [hw, hh, hlen] at hcore
      -- the orders
      have p1 : (s.byHeight q).rects.Perm s.rects := (hq _ heightCmp_consistent _).1
      have e1 : (s.byHeight q).rects = order q s.rects 1 := rfl
      generalize hs1 : s.byHeight q = s1 at p1 e1
      have m1 : s1.maxWidth = s.maxWidth := by rw [← hs1]; rfl
      have m1' : s1.maxHeight = s.maxHeight := by rw [← hs1]; rfl
      have p2 : (s1.byWidth q).rects.Perm s.rects := ((hq _ widthCmp_consistent _).1).trans p1
      have e2 : (s1.byWidth q).rects = order q s.rects 2 := by simp only [RSet.byWidth, e1, order]
      have m2 : (s1.byWidth q).maxWidth = s.maxWidth := m1
      have m2' : (s1.byWidth q).maxHeight = s.maxHeight := m1'
      generalize hs2 : s1.byWidth q = s2 at p2 e2 m2 m2'
      have p3 : s2.rotate.rects.Perm (s.rects.map Rect.turn) := p2.map Rect.turn
      have e3 : s2.rotate.rects = order q s.rects 3 := by
        show s2.rects.map Rect.turn = _
        rw [e2]; rfl
      have m3 : s2.rotate.maxWidth = s.maxHeight := m2'
      have m3' : s2.rotate.maxHeight = s.maxWidth := m2
      generalize hs3 : s2.rotate = s3 at p3 e3 m3 m3'
      have p4 : (s3.byWidth q).rects.Perm (s.rects.map Rect.turn) := ((hq _ widthCmp_consistent _).1).trans p3
      have e4 : (s3.byWidth q).rects = order q s.rects 4 := by
        simp only [RSet.byWidth, e3, order]
      have m4 : (s3.byWidth q).maxWidth = s.maxHeight := m3
      have m4' : (s3.byWidth q).maxHeight = s.maxWidth := m3'
      generalize hs4 : s3.byWidth q = s4 at p4 e4 m4 m4'
      have small : ∀ {l : List Rect}, l.Perm s.rects → ∀ r ∈ l, Small r := fun h r hr => hsm r (h.mem_iff.mp hr)
      have small' : ∀ {l : List Rect}, l.Perm (s.rects.map Rect.turn) → ∀ r ∈ l, Small r := by
        intro l h r hr
        obtain ⟨a, ha, rfl⟩ := List.mem_map.mp (h.mem_iff.mp hr)
        have := hsm a ha
        exact ⟨this.h, this.w, this.h', this.w'⟩
      have ne : ∀ {l : List Rect}, l.Perm s.rects → l ≠ [] := by
        rintro l h rfl; exact hRne h.symm.eq_nil
      have ne' : ∀ {l : List Rect}, l.Perm (s.rects.map Rect.turn) → l ≠ [] := by
        rintro l h rfl
        exact hRne (List.map_eq_nil_iff.mp h.symm.eq_nil)
      have len : ∀ {l : List Rect}, l.Perm s.rects → l.length = sizes.length := fun h => by rw [h.length_eq, hlen]
      have len' : ∀ {l : List Rect}, l.Perm (s.rects.map Rect.turn) → l.length = sizes.length := fun h => by
        rw [h.length_eq, List.length_map, hlen]
      have c0 : Chosen (sizes.length + 1) mw mh (order q s.rects) ⟨longMax, mw, mh, 0⟩ :=
        ⟨by simp only [longMax]; omega, by simp, fun h => absurd rfl h, by simp, by simp⟩
      -- first search
      obtain ⟨g1, w1, h1', r1, r2, r3, r4⟩ := searchBox_spec (g := Grid.alloc (sizes.length + 1)) (s := s1)
        (b := ⟨s.maxWidth, mw, s.maxHeight, mh, longMax⟩) (small p1) (ne p1) ⟨rfl, rfl, by show 1 ≤ sizes.length + 1; omega⟩
        (by rw [len p1]; rfl) m1.symm m1'.symm (by simp only; omega) (by simp only; omega) (by simp only; omega)
        (by simp only [longMax]; omega) (by simp only; omega)
      have c1 : Chosen (sizes.length + 1) mw mh (order q s.rects) ((⟨longMax, mw, mh, 0⟩ : Choice).update w1 h1' 1) := by
        refine c0.update (by omega) (fun p => ?_) (fun p _ => ?_) (by omega)
        · obtain ⟨a, b, c, d, W, x, y⟩ := r4 p
          rw [e1] at y
          exact ⟨a, b, W, x, y⟩
        · obtain ⟨a, b, c, d, W, x, y⟩ := r4 p
          exact ⟨d, c⟩
      have first : 0 < w1 * h1' ∧ w1 * h1' < longMax → ((⟨longMax, mw, mh, 0⟩ : Choice).update w1 h1' 1).case ≠ 0 ∧
          ((⟨longMax, mw, mh, 0⟩ : Choice).update w1 h1' 1).area ≤ w1 * h1' := by
        intro p
        unfold Choice.update
        rw [if_pos p]
        exact ⟨by simp, Int.le_refl _⟩
      have r1' := r1
      generalize hc1 : (⟨longMax, mw, mh, 0⟩ : Choice).update w1 h1' 1 = C1 at c1 first
      have stay : ∀ (c : Choice) (w h : Int) (k : Nat) (a : Int), k ≠ 0 → (c.case ≠ 0 ∧ c.area ≤ a) →
          ((c.update w h k).case ≠ 0 ∧ (c.update w h k).area ≤ a) := by
        intro c w h k a hk hc
        unfold Choice.update
        split
        · exact ⟨hk, by simp only; omega⟩
        · exact hc
      -- second search
      obtain ⟨g2, w2, h2', u1, u2, u3, u4⟩ := searchBox_spec (g := g1) (s := s2)
        (b := ⟨s.maxWidth, mw, s.maxHeight, mh, C1.area⟩) (small p2) (ne p2) r2
        (by rw [len p2, r3]; rfl) m2.symm m2'.symm (by simp only; omega) (by simp only; omega) (by simp only; omega)
        c1.area (by simp only; omega)
      have c2 : Chosen (sizes.length + 1) mw mh (order q s.rects) (C1.update w2 h2' 2) := by
        refine c1.update (by omega) (fun p => ?_) (fun p _ => ?_) (by omega)
        · obtain ⟨a, b, c, d, W, x, y⟩ := u4 p
          rw [e2, r3] at y
          exact ⟨a, b, W, x, y⟩
        · obtain ⟨a, b, c, d, W, x, y⟩ := u4 p
          exact ⟨d, c⟩
      generalize hc2 : C1.update w2 h2' 2 = C2 at c2
      obtain ⟨g3, w3, h3', v1, v2, v3, v4⟩ := searchBox_spec (g := g2) (s := s3)
        (b := ⟨s.maxHeight, mh, s.maxWidth, mw, C2.area⟩) (small' p3) (ne' p3) u2
        (by rw [len' p3, u3, r3]; rfl) m3.symm m3'.symm (by simp only; omega) (by simp only; omega) (by simp only; omega)
        c2.area (by simp only; omega)
      have c3 : Chosen (sizes.length + 1) mw mh (order q s.rects) (C2.update w3 h3' 3) := by
        refine c2.update (by omega) (fun p => ?_) (by omega) (fun p _ => ?_)
        · obtain ⟨a, b, c, d, W, x, y⟩ := v4 p
          rw [e3, u3, r3] at y
          exact ⟨a, b, W, x, y⟩
        · obtain ⟨a, b, c, d, W, x, y⟩ := v4 p
          exact ⟨d, c⟩
      generalize hc3 : C2.update w3 h3' 3 = C3 at c3
      obtain ⟨g4, w4, h4', x1, x2, x3, x4⟩ := searchBox_spec (g := g3) (s := s4)
        (b := ⟨s.maxHeight, mh, s.maxWidth, mw, C3.area⟩) (small' p4) (ne' p4) v2
        (by rw [len' p4, v3, u3, r3]; rfl) m4.symm m4'.symm (by simp only; omega) (by simp only; omega) (by simp only; omega)
        c3.area (by simp only; omega)
      have c4 : Chosen (sizes.length + 1) mw mh (order q s.rects) (C3.update w4 h4' 4) := by
        refine c3.update (by omega) (fun p => ?_) (by omega) (fun p _ => ?_)
        · obtain ⟨a, b, c, d, W, x, y⟩ := x4 p
          rw [e4, v3, u3, r3] at y
          exact ⟨a, b, W, x, y⟩
        · obtain ⟨a, b, c, d, W, x, y⟩ := x4 p
          exact ⟨d, c⟩
      generalize hc4 : C3.update w4 h4' 4 = C4 at c4
      simp only [bind, Except.bind, hs1, hs2, hs3, hs4, m1, m1', r1, hc1, m2, m2', u1, hc2, m3, m3', v1, hc3, m4, m4', x1, hc4] at hcore
      have fst : 0 < w1 * h1' ∧ w1 * h1' < longMax → C4.case ≠ 0 ∧ C4.area ≤ w1 * h1' := by
        intro p
        rw [← hc4]
        refine stay _ _ _ _ _ (by decide) ?_
        rw [← hc3]
        refine stay _ _ _ _ _ (by decide) ?_
        rw [← hc2]
        exact stay _ _ _ _ _ (by decide) (first p)
      have grow : ∀ (c : Choice) (w h : Int) (k : Nat), (c.update w h k).area ≤ c.area := by
        intro c w h k
        unfold Choice.update
        split
        · simp only; omega
        · exact Int.le_refl _
      have keep : ∀ (c : Choice) (w h : Int) (k : Nat), k ≠ 0 → (c.area = longMax ∨ c.case ≠ 0) →
          ((c.update w h k).area = longMax ∨ (c.update w h k).case ≠ 0) := by
        intro c w h k hk hc
        unfold Choice.update
        split
        · exact Or.inr hk
        · exact hc
      have a2 : C2.area = longMax ∨ C4.case ≠ 0 := by
        have : C2.area = longMax ∨ C2.case ≠ 0 := by
          rw [← hc2]
          refine keep _ _ _ _ (by decide) ?_
          rw [← hc1]
          exact keep _ _ _ _ (by decide) (Or.inl rfl)
        refine this.imp_right (fun h => ?_)
        rw [← hc4]
        refine (stay _ _ _ _ _ (by decide) ⟨?_, Int.le_refl _⟩).1
        rw [← hc3]
        exact (stay _ _ _ _ _ (by decide) ⟨h, Int.le_refl _⟩).1
      have a3 : C4.area ≤ C2.area := by
        have x := grow C3 w4 h4' 4
        have y := grow C2 w3 h3' 3
        rw [hc4] at x
        rw [hc3] at y
        omega
      have a4 : 0 < w3 * h3' ∧ w3 * h3' < C2.area → C4.case ≠ 0 ∧ C4.area ≤ w3 * h3' := by
        intro p
        rw [← hc4]
        refine stay _ _ _ _ _ (by decide) ?_
        rw [← hc3]
        unfold Choice.update
        rw [if_pos p]
        exact ⟨by simp, Int.le_refl _⟩
      have third : ∃ g2 a g3 w3 h3, Sane g2 ∧ g2.size = sizes.length + 1 ∧ (a = longMax ∨ C4.case ≠ 0) ∧ C4.area ≤ a ∧
          g2.searchBox false s3 ⟨s.maxHeight, mh, s.maxWidth, mw, a⟩ = .ok (g3, w3, h3) ∧
          (0 < w3 * h3 ∧ w3 * h3 < a → C4.case ≠ 0 ∧ C4.area ≤ w3 * h3) := by
        refine ⟨g2, C2.area, g3, w3, h3', u2, by rw [u3, r3]; rfl, a2, a3, ?_, a4⟩
        exact v1
      have hsz : g4.size = sizes.length + 1 := by rw [x3, v3, u3, r3]; rfl
      have hle := c4.le
      rcases (by omega : C4.case = 0 ∨ C4.case = 1 ∨ C4.case = 2 ∨ C4.case = 3 ∨ C4.case = 4) with k | k | k | k | k
      · refine ⟨mw, mh, C4, g4, s4, rfl, rfl, c4, x2, hsz, ?_, ?_, ⟨g1, w1, h1', ?_, fst⟩, third⟩
        · rw [k]; exact e4
        · rw [hcore]
          simp [k, finish, bind, Except.bind]
        · exact r1'
      · refine ⟨mw, mh, C4, g4, s4.rotate, rfl, rfl, c4, x2, hsz, ?_, ?_, ⟨g1, w1, h1', ?_, fst⟩, third⟩
        · rw [k]
          show s4.rects.map Rect.turn = _
          rw [e4]; rfl
        · rw [hcore]
          simp [k, finish, bind, Except.bind]
        · exact r1'
      · refine ⟨mw, mh, C4, g4, s4.rotate.byWidth q, rfl, rfl, c4, x2, hsz, ?_, ?_, ⟨g1, w1, h1', ?_, fst⟩, third⟩
        · rw [k]
          show q widthCmp (s4.rects.map Rect.turn) = _
          rw [e4]; rfl
        · rw [hcore]
          simp [k, finish, bind, Except.bind]
        · exact r1'
      · refine ⟨mw, mh, C4, g4, s4.byHeight q, rfl, rfl, c4, x2, hsz, ?_, ?_, ⟨g1, w1, h1', ?_, fst⟩, third⟩
        · rw [k]
          show q heightCmp s4.rects = _
          rw [e4]; rfl
        · rw [hcore]
          simp [k, finish, bind, Except.bind]
        · exact r1'
      · refine ⟨mw, mh, C4, g4, s4, rfl, rfl, c4, x2, hsz, ?_, ?_, ⟨g1, w1, h1', ?_, fst⟩, third⟩
        · rw [k]; exact e4
        · rw [hcore]
          simp [k, finish, bind, Except.bind]
        · exact r1'

end Pack
end MM
