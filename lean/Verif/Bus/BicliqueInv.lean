import Verif.Bus.BicliqueMem

/-! The scores of windows. -/

namespace MM
namespace Bus

/-- Sum of `n` values from `a` on. -/
def wins (f : Nat → Nat) (a : Nat) : Nat → Nat
  | 0 => 0
  | n + 1 => wins f a n + f (a + n)

theorem wins_slide (f : Nat → Nat) (a n : Nat) : f a + wins f (a + 1) n = wins f a n + f (a + n) := by
  induction n with
  | zero => simp [wins]
  | succ n ih => simp only [wins]; rw [show a + 1 + n = a + (n + 1) by omega]; omega

theorem wins_sum (f : Nat → Nat) (a n : Nat) : wins f a n = ((List.range' a n).map f).sum := by
  induction n with
  | zero => rfl
  | succ n ih => rw [List.range'_1_concat, List.map_append, List.sum_append, ← ih]; simp [wins]

/-- The scores of lines. -/
def Scores (T : Topo) (lines : List Byte) (ls : Bool → Nat → Nat → Nat → Nat) : Prop :=
  ∀ u w z0 z1, w < sideW T u → z0 ≤ z1 → z1 < sideZ T u → lineScore T lines u w z0 z1 = .ok (ls u w z0 z1)

/-- The score of a window. -/
def winScore (ls : Bool → Nat → Nat → Nat → Nat) (u : Bool) (L n z w : Nat) : Nat := wins (fun i => ls u i z (z + L - 1)) w n

/-- A table in which the windows of `P` have their score. -/
structure Scored (T : Topo) (ls : Bool → Nat → Nat → Nat → Nat) (P : Bool → Nat → Nat → Nat → Nat → Prop) (mem : List Nat) : Prop where
  length : mem.length = scoreTotal T
  table : ∀ h w, 1 ≤ h → h ≤ T.dimY → 1 ≤ w → w ≤ T.dimX → mem[memAddr T h w]? = some (offset T h w)
  score : ∀ u L n z w, Window T u L n z w → P u L n z w → mem[addr T u L n z w]? = some (winScore ls u L n z w)

variable {T : Topo} {lines : List Byte} {ls : Bool → Nat → Nat → Nat → Nat} {P : Bool → Nat → Nat → Nat → Nat → Prop} {mem : List Nat}

theorem Scored.mono {Q : Bool → Nat → Nat → Nat → Nat → Prop} (h : Scored T ls P mem) (hq : ∀ u L n z w, Window T u L n z w → Q u L n z w → P u L n z w) : Scored T ls Q mem :=
  ⟨h.length, h.table, fun u L n z w hv hp => h.score u L n z w hv (hq u L n z w hv hp)⟩

theorem Scored.get (h : Scored T ls P mem) {u : Bool} {L n z w : Nat} (hv : Window T u L n z w) (hp : P u L n z w) :
    ∀ h' v y x, (h', v, y, x) = rectOf u L n z w → yieldAt T mem h' v y x u = .ok (winScore ls u L n z w) := by
  obtain ⟨h1, v1, y1, x1, r1, r2, a1, a2, a3, a4, a5, a6⟩ := addr_rect T hv
  intro h' v y x hr
  rw [← r1] at hr
  cases hr
  have hs := h.score u L n z w hv hp
  rw [r2] at hs
  simp only [yieldAt, at_ok (h.table h1 v1 a1 a2 a3 a4), bind, Except.bind, at_ok hs]

theorem Scored.put (h : Scored T ls P mem) {u : Bool} {L n z w : Nat} (hv : Window T u L n z w) :
    ∃ mem', (∀ h' v y x, (h', v, y, x) = rectOf u L n z w → yieldPut T mem h' v y x u (winScore ls u L n z w) = .ok mem') ∧
      Scored T ls (fun u' L' n' z' w' => P u' L' n' z' w' ∨ (u' = u ∧ L' = L ∧ n' = n ∧ z' = z ∧ w' = w)) mem' := by
  obtain ⟨h1, v1, y1, x1, r1, r2, a1, a2, a3, a4, a5, a6⟩ := addr_rect T hv
  obtain ⟨b1, b2⟩ := addr_bounds hv
  refine ⟨mem.set (addr T u L n z w) (winScore ls u L n z w), ?_, ?_⟩
  · intro h' v y x hr
    rw [← r1] at hr
    cases hr
    simp only [yieldPut, at_ok (h.table h1 v1 a1 a2 a3 a4), bind, Except.bind]
    rw [← r2]
    exact put_ok (by rw [h.length]; exact b2)
  · refine ⟨by rw [List.length_set, h.length], ?_, ?_⟩
    · intro h' w' p1 p2 p3 p4
      have := memAddr_lt (T := T) p1 p2 p3 p4
      rw [List.getElem?_set_ne (by omega)]
      exact h.table h' w' p1 p2 p3 p4
    · intro u' L' n' z' w' hv' hp
      by_cases he : addr T u L n z w = addr T u' L' n' z' w'
      · obtain ⟨rfl, rfl, rfl, rfl, rfl⟩ := addr_inj hv hv' he
        exact List.getElem?_set_self (by rw [h.length]; exact b2)
      · rw [List.getElem?_set_ne he]
        rcases hp with hp | ⟨rfl, rfl, rfl, rfl, rfl⟩
        · exact h.score u' L' n' z' w' hv' hp
        · exact absurd rfl he

theorem winScore_one (u : Bool) (L z w : Nat) : winScore ls u L 1 z w = ls u w z (z + L - 1) := by simp [winScore, wins]

/-- The table after the loop for single lines. -/
theorem singleLines_ok (hs : Scores T lines ls) {u : Bool} {L : Nat} (h1 : 1 ≤ L) (hL : L ≤ sideZ T u) (hW : 0 < sideW T u) (h : Scored T ls P mem) :
    ∃ mem', singleLines T lines u L mem = .ok mem' ∧ Scored T ls (fun u' L' n' z' w' => P u' L' n' z' w' ∨ (u' = u ∧ L' = L ∧ n' = 1)) mem' := by
  cases u with
  | false =>
    simp only [sideZ, sideW, Bool.false_eq_true, if_false] at hL hW
    obtain ⟨mem', m1, m2⟩ := range_inv0 (P := fun y mem => Scored T ls (fun u' L' n' z' w' => P u' L' n' z' w' ∨ (u' = false ∧ L' = L ∧ n' = 1 ∧ z' < y)) mem)
      (f := fun mem y0 => (List.range (T.dimX - 1 + 1)).foldlM (init := mem) fun mem x0 => do
        let s ← lineScore T lines false x0 y0 (y0 + L - 1)
        yieldPut T mem L 1 y0 x0 false s) (T.dimY - L + 1) (h.mono fun u' L' n' z' w' _ hp => by rcases hp with hp | hp; exact hp; omega) (by
        intro y mem hy hg
        obtain ⟨mem', m1, m2⟩ := range_inv0 (P := fun x mem => Scored T ls (fun u' L' n' z' w' => P u' L' n' z' w' ∨ (u' = false ∧ L' = L ∧ n' = 1 ∧ (z' < y ∨ z' = y ∧ w' < x))) mem)
          (f := fun mem x0 => do
            let s ← lineScore T lines false x0 y (y + L - 1)
            yieldPut T mem L 1 y x0 false s) (T.dimX - 1 + 1) (hg.mono fun u' L' n' z' w' _ hp => by
              rcases hp with hp | ⟨a, b, c, d⟩
              · exact .inl hp
              · exact .inr ⟨a, b, c, by omega⟩) (by
            intro x mem hx hg
            have hv : Window T false L 1 y x := ⟨h1, Nat.le_refl _, by simp [sideZ]; omega, by simp [sideW]; omega⟩
            obtain ⟨mem', m1, m2⟩ := hg.put hv
            refine ⟨mem', ?_, m2.mono fun u' L' n' z' w' _ hp => ?_⟩
            · have := m1 L 1 y x rfl
              rw [winScore_one] at this
              rw [hs false x y (y + L - 1) (by simp [sideW]; omega) (by omega) (by simp [sideZ]; omega)]
              exact this
            · rcases hp with hp | ⟨a, b, c, d⟩
              · exact .inl (.inl hp)
              · by_cases hlt : z' < y ∨ z' = y ∧ w' < x
                · exact .inl (.inr ⟨a, b, c, hlt⟩)
                · exact .inr ⟨a, b, c, by omega, by omega⟩)
        refine ⟨mem', m1, m2.mono fun u' L' n' z' w' hv hp => ?_⟩
        rcases hp with hp | ⟨a, b, c, d⟩
        · exact .inl hp
        · have := hv.w
          subst a
          simp [sideW] at this
          exact .inr ⟨rfl, b, c, by omega⟩)
    refine ⟨mem', m1, m2.mono fun u' L' n' z' w' hv hp => ?_⟩
    rcases hp with hp | ⟨a, b, c⟩
    · exact .inl hp
    · have := hv.z
      subst a
      simp [sideZ] at this
      exact .inr ⟨rfl, b, c, by omega⟩
  | true =>
    simp only [sideZ, sideW, if_true] at hL hW
    obtain ⟨mem', m1, m2⟩ := range_inv0 (P := fun y mem => Scored T ls (fun u' L' n' z' w' => P u' L' n' z' w' ∨ (u' = true ∧ L' = L ∧ n' = 1 ∧ w' < y)) mem)
      (f := fun mem y0 => (List.range (T.dimX - L + 1)).foldlM (init := mem) fun mem x0 => do
        let s ← lineScore T lines true y0 x0 (x0 + L - 1)
        yieldPut T mem 1 L y0 x0 true s) (T.dimY - 1 + 1) (h.mono fun u' L' n' z' w' _ hp => by rcases hp with hp | hp; exact hp; omega) (by
        intro y mem hy hg
        obtain ⟨mem', m1, m2⟩ := range_inv0 (P := fun x mem => Scored T ls (fun u' L' n' z' w' => P u' L' n' z' w' ∨ (u' = true ∧ L' = L ∧ n' = 1 ∧ (w' < y ∨ w' = y ∧ z' < x))) mem)
          (f := fun mem x0 => do
            let s ← lineScore T lines true y x0 (x0 + L - 1)
            yieldPut T mem 1 L y x0 true s) (T.dimX - L + 1) (hg.mono fun u' L' n' z' w' _ hp => by
              rcases hp with hp | ⟨a, b, c, d⟩
              · exact .inl hp
              · exact .inr ⟨a, b, c, by omega⟩) (by
            intro x mem hx hg
            have hv : Window T true L 1 x y := ⟨h1, Nat.le_refl _, by simp [sideZ]; omega, by simp [sideW]; omega⟩
            obtain ⟨mem', m1, m2⟩ := hg.put hv
            refine ⟨mem', ?_, m2.mono fun u' L' n' z' w' _ hp => ?_⟩
            · have := m1 1 L y x rfl
              rw [winScore_one] at this
              rw [hs true y x (x + L - 1) (by simp [sideW]; omega) (by omega) (by simp [sideZ]; omega)]
              exact this
            · rcases hp with hp | ⟨a, b, c, d⟩
              · exact .inl (.inl hp)
              · by_cases hlt : w' < y ∨ w' = y ∧ z' < x
                · exact .inl (.inr ⟨a, b, c, hlt⟩)
                · exact .inr ⟨a, b, c, by omega, by omega⟩)
        refine ⟨mem', m1, m2.mono fun u' L' n' z' w' hv hp => ?_⟩
        rcases hp with hp | ⟨a, b, c, d⟩
        · exact .inl hp
        · have := hv.z
          subst a
          simp [sideZ] at this
          exact .inr ⟨rfl, b, c, by omega⟩)
    refine ⟨mem', m1, m2.mono fun u' L' n' z' w' hv hp => ?_⟩
    rcases hp with hp | ⟨a, b, c⟩
    · exact .inl hp
    · have := hv.w
      subst a
      simp [sideW] at this
      exact .inr ⟨rfl, b, c, by omega⟩

theorem sub_ok {a b : Nat} (h : b ≤ a) : sub_ a b = .ok (a - b) := by simp only [sub_, if_pos h]; rfl

theorem rectOf_eta (u : Bool) (L n z w : Nat) : ∃ h v y x, rectOf u L n z w = (h, v, y, x) := ⟨_, _, _, _, rfl⟩

/-- The table after a window has moved along all lines. -/
theorem slide_ok (hs : Scores T lines ls) {u : Bool} {L n z : Nat} (h1 : 1 ≤ L) (hn : 2 ≤ n) (hz : z + L ≤ sideZ T u) (hW : n ≤ sideW T u) (h : Scored T ls P mem) (hp : P u L (n - 1) z 0) :
    ∃ mem', slide T lines u L n z mem = .ok mem' ∧ Scored T ls (fun u' L' n' z' w' => P u' L' n' z' w' ∨ (u' = u ∧ L' = L ∧ n' = n ∧ z' = z)) mem' := by
  have hg := h.get ⟨h1, by omega, hz, by omega⟩ hp
  obtain ⟨mem1, p1, p2⟩ := h.put (u := u) (L := L) (n := n) (z := z) (w := 0) ⟨h1, by omega, hz, by omega⟩
  have hw0 : winScore ls u L (n - 1) z 0 + ls u (n - 1) z (z + L - 1) = winScore ls u L n z 0 := by
    obtain ⟨m, rfl⟩ : ∃ m, n = m + 1 := ⟨n - 1, by omega⟩
    simp [winScore, wins]
  obtain ⟨⟨s', mem2⟩, q1, q2, q3⟩ := range_inv (P := fun w (st : Nat × List Nat) => st.1 = winScore ls u L n z (w - 1) ∧
      Scored T ls (fun u' L' n' z' w' => P u' L' n' z' w' ∨ (u' = u ∧ L' = L ∧ n' = n ∧ z' = z ∧ w' < w)) st.2)
    (f := fun st w0 => do
      let a ← lineScore T lines u (w0 - 1) z (z + L - 1)
      let s ← sub_ st.1 a
      let b ← lineScore T lines u (w0 + n - 1) z (z + L - 1)
      let (h, w, y, x) := rectOf u L n z w0
      let mem ← yieldPut T st.2 h w y x u (s + b)
      pure (s + b, mem)) (sideW T u - n) 1 (s := (winScore ls u L n z 0, mem1)) ⟨rfl, p2.mono fun u' L' n' z' w' _ hp => by
        rcases hp with hp | ⟨a, b, c, d, e⟩
        · exact .inl hp
        · exact .inr ⟨a, b, c, d, by omega⟩⟩ (by
      rintro w ⟨s, mem⟩ ha hb ⟨r1, r2⟩
      simp only at r1 r2
      have e1 := wins_slide (fun i => ls u i z (z + L - 1)) (w - 1) n
      rw [show w - 1 + 1 = w by omega] at e1
      have e2 : ls u (w - 1) z (z + L - 1) + winScore ls u L n z w = s + ls u (w + n - 1) z (z + L - 1) := by
        rw [r1, show w + n - 1 = w - 1 + n by omega]; exact e1
      have hle : ls u (w - 1) z (z + L - 1) ≤ s := by
        rw [r1]
        obtain ⟨m, rfl⟩ : ∃ m, n = m + 1 := ⟨n - 1, by omega⟩
        have := wins_slide (fun i => ls u i z (z + L - 1)) (w - 1) m
        simp only [winScore, wins]
        omega
      obtain ⟨mem', m1, m2⟩ := r2.put (u := u) (L := L) (n := n) (z := z) (w := w) ⟨h1, by omega, hz, by omega⟩
      obtain ⟨h', v, y, x, hr⟩ := rectOf_eta u L n z w
      have hm := m1 h' v y x hr.symm
      refine ⟨(winScore ls u L n z w, mem'), ?_, rfl, m2.mono fun u' L' n' z' w' _ hp => ?_⟩
      · have e3 : s - ls u (w - 1) z (z + L - 1) + ls u (w + n - 1) z (z + L - 1) = winScore ls u L n z w := by omega
        simp only [hs u (w - 1) z (z + L - 1) (by omega) (by omega) (by omega), hs u (w + n - 1) z (z + L - 1) (by omega) (by omega) (by omega), sub_ok hle, bind, Except.bind, hr, e3, hm]; rfl
      · rcases hp with hp | ⟨a, b, c, d, e⟩
        · exact .inl (.inl hp)
        · by_cases hlt : w' < w
          · exact .inl (.inr ⟨a, b, c, d, hlt⟩)
          · exact .inr ⟨a, b, c, d, by omega⟩)
  refine ⟨mem2, ?_, q3.mono fun u' L' n' z' w' hv hp => ?_⟩
  · obtain ⟨h', v, y, x, hr⟩ := rectOf_eta u L (n - 1) z 0
    obtain ⟨h'', v', y', x', hr'⟩ := rectOf_eta u L n z 0
    have e1 := hg h' v y x hr.symm
    have e2 := p1 h'' v' y' x' hr'.symm
    simp only [slide, hr, e1, hs u (n - 1) z (z + L - 1) (by omega) (by omega) (by omega), hr', hw0, e2, bind, Except.bind]
    simp only [bind, Except.bind] at q1
    rw [q1]; rfl
  · rcases hp with hp | ⟨rfl, b, c, d⟩
    · exact .inl hp
    · have := hv.w
      exact .inr ⟨rfl, b, c, d, by omega⟩

/-- The table after one half of `compute_cache`. -/
theorem scoreSide_ok (hs : Scores T lines ls) {u : Bool} (hW : 0 < sideW T u) (h : Scored T ls P mem) :
    ∃ mem', scoreSide T lines u mem = .ok mem' ∧ Scored T ls (fun u' L' n' z' w' => P u' L' n' z' w' ∨ u' = u) mem' := by
  obtain ⟨mem', m1, m2⟩ := range_inv (P := fun L mem => Scored T ls (fun u' L' n' z' w' => P u' L' n' z' w' ∨ (u' = u ∧ L' < L)) mem)
    (f := fun mem L => do
      let mem ← singleLines T lines u L mem
      (List.range' 2 (sideW T u - 1)).foldlM (init := mem) fun mem n =>
        (List.range (sideZ T u - L + 1)).foldlM (init := mem) fun mem z => slide T lines u L n z mem) (sideZ T u) 1 (s := mem) (h.mono fun u' L' n' z' w' hv hp => by
      have := hv.L1
      rcases hp with hp | hp
      · exact hp
      · omega) (by
      intro L mem ha hb hg
      obtain ⟨mem1, a1, a2⟩ := singleLines_ok hs ha (by omega) hW hg
      obtain ⟨mem2, b1, b2⟩ := range_inv (P := fun n mem => Scored T ls (fun u' L' n' z' w' => (P u' L' n' z' w' ∨ (u' = u ∧ L' < L)) ∨ (u' = u ∧ L' = L ∧ n' < n)) mem)
        (f := fun mem n => (List.range (sideZ T u - L + 1)).foldlM (init := mem) fun mem z => slide T lines u L n z mem) (sideW T u - 1) 2 (s := mem1) (a2.mono fun u' L' n' z' w' hv hp => by
          rcases hp with hp | ⟨a, b, c⟩
          · exact .inl hp
          · have := hv.n1
            exact .inr ⟨a, b, by omega⟩) (by
          intro n mem hna hnb hg
          obtain ⟨mem', c1, c2⟩ := range_inv0 (P := fun z mem => Scored T ls (fun u' L' n' z' w' => ((P u' L' n' z' w' ∨ (u' = u ∧ L' < L)) ∨ (u' = u ∧ L' = L ∧ n' < n)) ∨ (u' = u ∧ L' = L ∧ n' = n ∧ z' < z)) mem)
            (f := fun mem z => slide T lines u L n z mem) (sideZ T u - L + 1) (s := mem) (hg.mono fun u' L' n' z' w' _ hp => by
              rcases hp with hp | hp
              · exact hp
              · omega) (by
              intro z mem hz hg
              obtain ⟨mem', d1, d2⟩ := slide_ok hs ha hna (z := z) (by omega) (by omega) hg (.inl (.inr ⟨rfl, rfl, by omega⟩))
              refine ⟨mem', d1, d2.mono fun u' L' n' z' w' _ hp => ?_⟩
              rcases hp with hp | ⟨a, b, c, d⟩
              · exact .inl (.inl hp)
              · by_cases hlt : z' < z
                · exact .inl (.inr ⟨a, b, c, hlt⟩)
                · exact .inr ⟨a, b, c, by omega⟩)
          refine ⟨mem', c1, c2.mono fun u' L' n' z' w' hv hp => ?_⟩
          rcases hp with hp | ⟨rfl, rfl, c⟩
          · exact .inl (.inl hp)
          · by_cases hlt : n' < n
            · exact .inl (.inr ⟨rfl, rfl, hlt⟩)
            · have := hv.z
              exact .inr ⟨rfl, rfl, by omega, by omega⟩)
      refine ⟨mem2, by simp only [a1, bind, Except.bind, b1], b2.mono fun u' L' n' z' w' hv hp => ?_⟩
      rcases hp with hp | ⟨rfl, b⟩
      · exact .inl (.inl hp)
      · by_cases hlt : L' < L
        · exact .inl (.inr ⟨rfl, hlt⟩)
        · have := hv.w
          exact .inr ⟨rfl, by omega, by omega⟩)
  refine ⟨mem', m1, m2.mono fun u' L' n' z' w' hv hp => ?_⟩
  rcases hp with hp | rfl
  · exact .inl hp
  · have := hv.z
    have := hv.n1
    exact .inr ⟨rfl, by omega⟩

/-- All windows have their score. -/
theorem bicliqueScores_ok (hs : Scores T lines ls) (hY : 0 < T.dimY) (hX : 0 < T.dimX) : ∃ mem, bicliqueScores T lines = .ok mem ∧ Scored T ls (fun _ _ _ _ _ => True) mem := by
  obtain ⟨o, m0, h1, h2, h3⟩ := accessTable_ok T (mem := List.replicate (scoreTotal T) 0) List.length_replicate
  have g0 : Scored T ls (fun _ _ _ _ _ => False) m0 := ⟨h2, h3, fun _ _ _ _ _ _ h => h.elim⟩
  obtain ⟨m1, a1, a2⟩ := scoreSide_ok hs (u := false) hX g0
  obtain ⟨m2, b1, b2⟩ := scoreSide_ok hs (u := true) hY a2
  refine ⟨m2, by simp only [bicliqueScores, h1, bind, Except.bind, a1, b1], b2.mono fun u _ _ _ _ _ _ => ?_⟩
  cases u
  · exact .inl (.inr rfl)
  · exact .inr rfl

end Bus
end MM
