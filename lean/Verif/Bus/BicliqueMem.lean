import Verif.Bus.Biclique
import Verif.Bus.EllInv

/-! The table of biclique scores: what is stored where. -/

namespace MM
namespace Bus

/-- A loop over consecutive numbers keeps an invariant. -/
theorem range_inv {σ : Type} {P : Nat → σ → Prop} {f : σ → Nat → B σ} : ∀ (n a : Nat) {s : σ}, P a s →
    (∀ i s, a ≤ i → i < a + n → P i s → ∃ s', f s i = .ok s' ∧ P (i + 1) s') → ∃ s', (List.range' a n).foldlM f s = .ok s' ∧ P (a + n) s'
  | 0, a, s, h0, _ => ⟨s, rfl, h0⟩
  | n + 1, a, s, h0, hs => by
    obtain ⟨s1, h1, h2⟩ := hs a s (Nat.le_refl _) (by omega) h0
    obtain ⟨s2, h3, h4⟩ := range_inv n (a + 1) h2 fun i s ha hi hp => hs i s (by omega) (by omega) hp
    refine ⟨s2, ?_, by rw [show a + (n + 1) = a + 1 + n by omega]; exact h4⟩
    rw [List.range'_succ, List.foldlM_cons, h1]; exact h3

theorem range_inv0 {σ : Type} {P : Nat → σ → Prop} {f : σ → Nat → B σ} (n : Nat) {s : σ} (h0 : P 0 s)
    (hs : ∀ i s, i < n → P i s → ∃ s', f s i = .ok s' ∧ P (i + 1) s') : ∃ s', (List.range n).foldlM f s = .ok s' ∧ P n s' := by
  obtain ⟨s', h1, h2⟩ := range_inv n 0 h0 fun i s _ hi hp => hs i s (by omega) hp
  rw [Nat.zero_add] at h2
  exact ⟨s', by rw [List.range_eq_range']; exact h1, h2⟩

/-- Cells of the tables for height `h` and widths up to `n`. -/
def wsum (T : Topo) (h : Nat) : Nat → Nat
  | 0 => 0
  | n + 1 => wsum T h n + memSize T h (n + 1)

/-- Cells of the tables for heights up to `n`. -/
def hsum (T : Topo) : Nat → Nat
  | 0 => 0
  | n + 1 => hsum T n + wsum T (n + 1) T.dimX

theorem wsum_mono (T : Topo) (h : Nat) {m n : Nat} (hmn : m ≤ n) : wsum T h m ≤ wsum T h n := by
  induction hmn with
  | refl => exact Nat.le_refl _
  | step _ ih => simp only [wsum]; omega

theorem hsum_mono (T : Topo) {m n : Nat} (hmn : m ≤ n) : hsum T m ≤ hsum T n := by
  induction hmn with
  | refl => exact Nat.le_refl _
  | step _ ih => simp only [hsum]; omega

/-- Offset of the table for height `h` and width `w`. -/
def offset (T : Topo) (h w : Nat) : Nat := T.dimY * T.dimX + hsum T (h - 1) + wsum T h (w - 1)

theorem offset_next {T : Topo} {h w : Nat} (hw : 1 ≤ w) : offset T h (w + 1) = offset T h w + memSize T h w := by
  obtain ⟨w, rfl⟩ : ∃ v, w = v + 1 := ⟨w - 1, by omega⟩
  simp only [offset, Nat.add_sub_cancel, wsum]; omega

theorem offset_row {T : Topo} {h : Nat} (hh : 1 ≤ h) : offset T h (T.dimX + 1) = offset T (h + 1) 1 := by
  obtain ⟨h, rfl⟩ : ∃ v, h = v + 1 := ⟨h - 1, by omega⟩
  simp only [offset, Nat.add_sub_cancel, hsum, Nat.sub_self, wsum]; omega

theorem offset_lex {T : Topo} {h w h' w' : Nat} (hh : 1 ≤ h) (hw : 1 ≤ w) (hwx : w ≤ T.dimX) (hlt : h < h' ∨ h = h' ∧ w < w') :
    offset T h w + memSize T h w ≤ offset T h' w' := by
  rw [← offset_next hw]
  rcases hlt with hlt | ⟨rfl, hlt⟩
  · have h1 : offset T h (w + 1) ≤ offset T h (T.dimX + 1) := by
      have := wsum_mono T h (show w + 1 - 1 ≤ T.dimX + 1 - 1 by omega)
      simp only [offset]; omega
    rw [offset_row hh] at h1
    have h2 := hsum_mono T (show h + 1 - 1 ≤ h' - 1 by omega)
    have h3 : offset T (h + 1) 1 = T.dimY * T.dimX + hsum T (h + 1 - 1) := by simp [offset, wsum]
    simp only [offset] at h1 h3 ⊢; omega
  · have := wsum_mono T h (show w + 1 - 1 ≤ w' - 1 by omega)
    simp only [offset]; omega

theorem scoreTotal_ge (T : Topo) : T.dimY * T.dimX + hsum T T.dimY ≤ scoreTotal T := by
  have inner : ∀ h n s, (List.range (n + 1)).foldl (fun s w => s + (memSize T h w + 1)) s = s + memSize T h 0 + 1 + wsum T h n + n := by
    intro h n
    induction n with
    | zero => intro s; simp [wsum]; omega
    | succ n ih => intro s; rw [List.range_succ, List.foldl_append, ih]; simp only [List.foldl_cons, List.foldl_nil, wsum]; omega
  have outer : ∀ n s, s + hsum T n + n * T.dimX ≤ (List.range (n + 1)).foldl (fun s h => (List.range (T.dimX + 1)).foldl (fun s w => s + (memSize T h w + 1)) s) s := by
    intro n
    induction n with
    | zero => intro s; simp only [hsum, Nat.zero_add, List.range_one, List.foldl_cons, List.foldl_nil]; rw [inner]; omega
    | succ n ih =>
      intro s
      rw [List.range_succ (n := n + 1), List.foldl_append]
      simp only [List.foldl_cons, List.foldl_nil]
      rw [inner]
      have := ih s
      simp only [hsum, Nat.succ_mul]; omega
  have := outer T.dimY 0
  simp only [scoreTotal]
  omega

/-- The lines of orientation `u`: `n` of them from `w` on, `L` long from `z` on. -/
structure Window (T : Topo) (u : Bool) (L n z w : Nat) : Prop where
  L1 : 1 ≤ L
  n1 : 1 ≤ n
  z : z + L ≤ sideZ T u
  w : w + n ≤ sideW T u

/-- The cell of the score of a window. -/
def addr (T : Topo) (u : Bool) (L n z w : Nat) : Nat :=
  if u then offset T n L + cellYX (memCols T L) w z true else offset T L n + cellYX (memCols T n) z w false

theorem place_lt {r c y x : Nat} (u : Bool) (hy : y < r) (hx : x < c) : cellYX c y x u < 2 * (r * c) := by
  have h := Nat.mul_le_mul_left c (show y + 1 ≤ r from hy)
  rw [Nat.mul_add, Nat.mul_one] at h
  rw [Nat.mul_comm r c]
  cases u <;> simp only [cellYX, unum] <;> simp <;> omega

theorem place_inj {c y x y' x' : Nat} {u u' : Bool} (hx : x < c) (hx' : x' < c) (h : cellYX c y x u = cellYX c y' x' u') : y = y' ∧ x = x' ∧ u = u' := by
  have h1 : x + c * y = x' + c * y' ∧ u = u' := by
    cases u <;> cases u' <;> simp only [cellYX, unum] at h <;> simp at h ⊢ <;> omega
  obtain ⟨h1, rfl⟩ := h1
  have h2 : y = y' := by
    have a := congrArg (· / c) h1
    simp only [Nat.add_mul_div_left _ _ (show 0 < c by omega), Nat.div_eq_of_lt hx, Nat.div_eq_of_lt hx', Nat.zero_add] at a
    exact a
  subst h2
  exact ⟨rfl, by omega, rfl⟩

/-- Address of the score at a place of the table of a height and a width. -/
theorem addr_rect (T : Topo) {u : Bool} {L n z w : Nat} (hv : Window T u L n z w) : ∃ h v y x, (h, v, y, x) = rectOf u L n z w ∧ addr T u L n z w = offset T h v + cellYX (memCols T v) y x u ∧
    1 ≤ h ∧ h ≤ T.dimY ∧ 1 ≤ v ∧ v ≤ T.dimX ∧ y < memRows T h ∧ x < memCols T v := by
  obtain ⟨h1, h2, h3, h4⟩ := hv
  cases u with
  | false =>
    simp only [sideZ, sideW, Bool.false_eq_true, if_false] at h3 h4
    exact ⟨L, n, z, w, rfl, rfl, h1, by omega, h2, by omega, by simp only [memRows]; omega, by simp only [memCols]; omega⟩
  | true =>
    simp only [sideZ, sideW, if_true] at h3 h4
    exact ⟨n, L, w, z, rfl, rfl, h2, by omega, h1, by omega, by simp only [memRows]; omega, by simp only [memCols]; omega⟩

theorem rect_inj {T : Topo} {h v y x h' v' y' x' : Nat} {u u' : Bool} (a : 1 ≤ h) (b : 1 ≤ v) (b' : v ≤ T.dimX) (c : y < memRows T h) (d : x < memCols T v)
    (e : 1 ≤ h') (f : 1 ≤ v') (f' : v' ≤ T.dimX) (g : y' < memRows T h') (i : x' < memCols T v')
    (he : offset T h v + cellYX (memCols T v) y x u = offset T h' v' + cellYX (memCols T v') y' x' u') : h = h' ∧ v = v' ∧ y = y' ∧ x = x' ∧ u = u' := by
  have l1 : cellYX (memCols T v) y x u < memSize T h v := place_lt u c d
  have l2 : cellYX (memCols T v') y' x' u' < memSize T h' v' := place_lt u' g i
  have hh : h = h' ∧ v = v' := by
    by_contra hne
    rcases (by omega : (h < h' ∨ h = h' ∧ v < v') ∨ (h' < h ∨ h' = h ∧ v' < v)) with hl | hl
    · have := offset_lex (T := T) a b b' hl
      omega
    · have := offset_lex (T := T) e f f' hl
      omega
  obtain ⟨rfl, rfl⟩ := hh
  obtain ⟨h1, h2, h3⟩ := place_inj d i (by omega : cellYX (memCols T v) y x u = cellYX (memCols T v) y' x' u')
  exact ⟨rfl, rfl, h1, h2, h3⟩

theorem addr_inj {T : Topo} {u u' : Bool} {L n z w L' n' z' w' : Nat} (hv : Window T u L n z w) (hv' : Window T u' L' n' z' w') (he : addr T u L n z w = addr T u' L' n' z' w') :
    u = u' ∧ L = L' ∧ n = n' ∧ z = z' ∧ w = w' := by
  obtain ⟨h, v, y, x, r1, r2, a1, a2, a3, a4, a5, a6⟩ := addr_rect T hv
  obtain ⟨h', v', y', x', s1, s2, b1, b2, b3, b4, b5, b6⟩ := addr_rect T hv'
  rw [r2, s2] at he
  obtain ⟨rfl, rfl, rfl, rfl, rfl⟩ := rect_inj a1 a3 a4 a5 a6 b1 b3 b4 b5 b6 he
  rw [r1] at s1
  cases u <;> simp [rectOf] at s1 <;> simp [s1]

theorem addr_bounds {T : Topo} {u : Bool} {L n z w : Nat} (hv : Window T u L n z w) : T.dimY * T.dimX ≤ addr T u L n z w ∧ addr T u L n z w < scoreTotal T := by
  obtain ⟨h, v, y, x, r1, r2, a1, a2, a3, a4, a5, a6⟩ := addr_rect T hv
  have l1 : cellYX (memCols T v) y x u < memSize T h v := place_lt u a5 a6
  have l2 := offset_lex (T := T) (h' := T.dimY + 1) (w' := 1) a1 a3 a4 (by omega)
  have l3 : offset T (T.dimY + 1) 1 = T.dimY * T.dimX + hsum T T.dimY := by simp [offset, wsum]
  have l4 := scoreTotal_ge T
  rw [r2]
  refine ⟨by simp only [offset]; omega, by omega⟩

theorem memAddr_lt {T : Topo} {h w : Nat} (a : 1 ≤ h) (a' : h ≤ T.dimY) (b : 1 ≤ w) (b' : w ≤ T.dimX) : memAddr T h w < T.dimY * T.dimX := by
  have h := Nat.mul_le_mul_right T.dimX (show (h - 1) + 1 ≤ T.dimY by omega)
  rw [Nat.add_mul, Nat.one_mul] at h
  simp only [memAddr]
  rw [Nat.mul_comm T.dimX]
  omega

theorem memAddr_inj {T : Topo} {h w h' w' : Nat} (a : 1 ≤ h) (a' : 1 ≤ h') (b : 1 ≤ w) (b' : w ≤ T.dimX) (c : 1 ≤ w') (c' : w' ≤ T.dimX) (he : memAddr T h w = memAddr T h' w') : h = h' ∧ w = w' := by
  have h2 : h - 1 = h' - 1 := by
    have e := congrArg (· / T.dimX) he
    simp only [memAddr, Nat.add_mul_div_left _ _ (show 0 < T.dimX by omega), Nat.div_eq_of_lt (show w - 1 < T.dimX by omega), Nat.div_eq_of_lt (show w' - 1 < T.dimX by omega), Nat.zero_add] at e
    exact e
  simp only [memAddr, h2] at he
  omega

/-- The access table is filled up to the given place. -/
theorem accessTable_ok (T : Topo) {mem : List Nat} (hl : mem.length = scoreTotal T) : ∃ o mem', accessTable T mem = .ok (o, mem') ∧ mem'.length = scoreTotal T ∧
    ∀ h w, 1 ≤ h → h ≤ T.dimY → 1 ≤ w → w ≤ T.dimX → mem'[memAddr T h w]? = some (offset T h w) := by
  have hst := scoreTotal_ge T
  obtain ⟨⟨o, m⟩, h1, h2⟩ := range_inv (P := fun h (s : Nat × List Nat) => s.1 = offset T h 1 ∧ s.2.length = scoreTotal T ∧
      ∀ h' w, 1 ≤ h' → h' < h → 1 ≤ w → w ≤ T.dimX → s.2[memAddr T h' w]? = some (offset T h' w))
    (f := fun s h => (List.range' 1 T.dimX).foldlM (init := s) fun s w => do
      let mem ← put s.2 (memAddr T h w) s.1
      pure (s.1 + memSize T h w, mem)) T.dimY 1 (s := (T.dimY * T.dimX, mem)) ⟨by simp [offset, hsum, wsum], hl, fun h' w a b => by omega⟩ (by
      rintro h s ha hb ⟨p1, p2, p3⟩
      obtain ⟨s', q1, q2, q3, q4, q5⟩ := range_inv (P := fun w (s : Nat × List Nat) => s.1 = offset T h w ∧ s.2.length = scoreTotal T ∧
          (∀ h' w', 1 ≤ h' → h' < h → 1 ≤ w' → w' ≤ T.dimX → s.2[memAddr T h' w']? = some (offset T h' w')) ∧
          ∀ w', 1 ≤ w' → w' < w → s.2[memAddr T h w']? = some (offset T h w'))
        (f := fun s w => do
          let mem ← put s.2 (memAddr T h w) s.1
          pure (s.1 + memSize T h w, mem)) T.dimX 1 (s := s) ⟨p1, p2, p3, fun w' a b => by omega⟩ (by
          rintro w ⟨o, m⟩ hwa hwb ⟨r1, r2, r3, r4⟩
          simp only at r1 r2 r3 r4
          have hlt := memAddr_lt (T := T) (h := h) (w := w) ha (by omega) hwa (by omega)
          obtain ⟨m', t1, t2, t3, t4⟩ := (⟨m.set (memAddr T h w) o, put_ok (by omega), List.length_set, List.getElem?_set_self (by omega), fun _ hj => List.getElem?_set_ne (fun e => hj e.symm)⟩ :
            ∃ m', put m (memAddr T h w) o = .ok m' ∧ m'.length = m.length ∧ m'[memAddr T h w]? = some o ∧ ∀ j : Nat, j ≠ memAddr T h w → m'[j]? = m[j]?)
          refine ⟨(o + memSize T h w, m'), by simp only [t1, bind, Except.bind]; rfl, by rw [offset_next hwa, r1], by rw [t2, r2], ?_, ?_⟩
          · intro h' w' a b c d
            rw [t4 _ (fun e => by have := memAddr_inj a ha c d hwa (by omega) e; omega)]
            exact r3 h' w' a b c d
          · intro w' a b
            by_cases he : w' = w
            · subst he; rw [t3, r1]
            · rw [t4 _ (fun e => by have := memAddr_inj ha ha a (by omega) hwa (by omega) e; omega)]
              exact r4 w' a (by omega))
      refine ⟨s', q1, ?_, q3, ?_⟩
      · rw [q2, Nat.add_comm 1, offset_row ha]
      · intro h' w a b c d
        by_cases he : h' = h
        · subst he; exact q5 w c (by omega)
        · exact q4 h' w a (by omega) c d)
  exact ⟨o, m, h1, h2.2.1, fun h w a b c d => h2.2.2 h w a (by omega) c d⟩

end Bus
end MM
