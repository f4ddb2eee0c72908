import Verif.Bus.EllInv
import Verif.Bus.Clique
import Mathlib.Tactic.Ring

/-! The memory of the clique search: tables apart from each other, cells with score and corners. -/

namespace MM
namespace Bus

/-- Rows of table `i`. -/
def rowsN (T : Topo) (i : Nat) : Nat := T.dimY - i

/-- Columns of table `i`. -/
def colsN (T : Topo) (W i : Nat) : Nat := if i + 1 < W then T.dimX - W + i + 2 else T.dimX

/-- Start of table `i`. -/
def offN (T : Topo) (W : Nat) : Nat → Nat
  | 0 => W
  | i + 1 => offN T W i + rowsN T i * colsN T W i

/-- Table `i`. -/
def tabN (T : Topo) (W i : Nat) : Tab := ⟨rowsN T i, colsN T W i, offN T W i⟩

/-- Widths that fit. -/
structure Fits (T : Topo) (W : Nat) : Prop where
  two : 2 ≤ W
  y : W ≤ T.dimY
  x : W ≤ T.dimX

variable {T : Topo} {W : Nat}

theorem memrows_ok (h : Fits T W) {i : Nat} (hi : i < W) : memrows T W i = .ok (rowsN T i) := by
  have := h.y
  simp only [memrows, if_pos hi, sub_, if_pos (show i ≤ T.dimY by omega)]
  rfl

theorem memcols_ok (h : Fits T W) {i : Nat} (hi : i < W) : memcols T W i = .ok (colsN T W i) := by
  have hx := h.x
  unfold memcols colsN
  by_cases h1 : i + 1 < W
  · simp only [if_pos h1, sub_, if_pos hx, bind, Except.bind]; rfl
  · rw [if_neg h1, if_neg h1, if_pos (show i + 1 = W by omega)]; rfl

theorem memsize_ok (h : Fits T W) {i : Nat} (hi : i < W) : memsize T W i = .ok (rowsN T i * colsN T W i) := by
  simp only [memsize, memrows_ok h hi, memcols_ok h hi, bind, Except.bind]; rfl

theorem offN_mono {i j : Nat} (h : i ≤ j) : offN T W i ≤ offN T W j := by
  induction j with
  | zero => have : i = 0 := by omega
            rw [this]
  | succ j ih =>
    by_cases he : i = j + 1
    · rw [he]
    · have := ih (by omega); simp only [offN]; omega

theorem memTotal_ok (h : Fits T W) : memTotal T W = .ok (offN T W W) := by
  have key : ∀ n, n ≤ W → ∃ s, (List.range n).foldlM (fun n i => do let s ← memsize T W i; pure (n + (s + 1))) 0 = (.ok s : B Nat) ∧ s + W = offN T W n + n := by
    intro n
    induction n with
    | zero => intro _; exact ⟨0, rfl, by simp [offN]⟩
    | succ n ih =>
      intro hn
      obtain ⟨s, h1, h2⟩ := ih (by omega)
      refine ⟨s + (rowsN T n * colsN T W n + 1), ?_, by simp only [offN]; omega⟩
      rw [List.range_succ, List.foldlM_append, h1]
      simp only [List.foldlM_cons, List.foldlM_nil, memsize_ok h (show n < W by omega), bind, Except.bind, pure, Except.pure]
  obtain ⟨s, h1, h2⟩ := key W (Nat.le_refl _)
  rw [memTotal, h1]
  congr 1; omega

/-- The header of the memory. -/
structure Header (T : Topo) (W : Nat) (mem : List Nat) : Prop where
  len : mem.length = offN T W W
  head : ∀ i, i < W → mem[i]? = some (offN T W i)

theorem put_get' {mem : List Nat} {i : Nat} {b : Nat} (h : i < mem.length) :
    ∃ mem', put mem i b = .ok mem' ∧ mem'.length = mem.length ∧ mem'[i]? = some b ∧ ∀ j : Nat, j ≠ i → mem'[j]? = mem[j]? :=
  ⟨mem.set i b, put_ok h, List.length_set, List.getElem?_set_self h, fun _ hj => List.getElem?_set_ne (fun e => hj e.symm)⟩

theorem layout_ok (h : Fits T W) : ∃ mem, layout T W (List.replicate (offN T W W) 0) = .ok mem ∧ Header T W mem ∧ ∀ j, W ≤ j → j < offN T W W → mem[j]? = some 0 := by
  have h2 := h.two
  have hW : W ≤ offN T W W := offN_mono (T := T) (W := W) (Nat.zero_le W)
  obtain ⟨m0, a1, a2, a3, a4⟩ := put_get' (mem := List.replicate (offN T W W) 0) (i := 0) (b := W) (by rw [List.length_replicate]; omega)
  have key : ∀ n, n ≤ W - 1 → ∃ mem, (List.range' 1 n).foldlM (fun mem i => do
      let a ← at_ mem (i - 1)
      let s ← memsize T W (i - 1)
      put mem i (a + s)) m0 = (.ok mem : B (List Nat)) ∧ mem.length = offN T W W ∧ (∀ i, i ≤ n → mem[i]? = some (offN T W i)) ∧ ∀ j, n < j → j < offN T W W → mem[j]? = some 0 := by
    intro n
    induction n with
    | zero =>
      intro _
      refine ⟨m0, rfl, by rw [a2, List.length_replicate], fun i hi => ?_, fun j hj hj' => ?_⟩
      · rw [show i = 0 by omega, a3]; rfl
      · rw [a4 j (by omega), List.getElem?_replicate, if_pos hj']
    | succ n ih =>
      intro hn
      obtain ⟨m, b1, b2, b3, b4⟩ := ih (by omega)
      obtain ⟨m', c1, c2, c3, c4⟩ := put_get' (mem := m) (i := n + 1) (b := offN T W n + rowsN T n * colsN T W n) (by omega)
      refine ⟨m', ?_, by omega, fun i hi => ?_, fun j hj hj' => ?_⟩
      · rw [List.range'_concat, List.foldlM_append, b1]
        have e1 : at_ m (n + 1 - 1) = .ok (offN T W n) := at_ok (b3 n (Nat.le_refl _))
        have e2 : memsize T W (n + 1 - 1) = .ok (rowsN T n * colsN T W n) := memsize_ok h (by omega)
        simp only [List.foldlM_cons, List.foldlM_nil, e1, e2, bind, Except.bind, show 1 + 1 * n = n + 1 by omega, c1]
        rfl
      · by_cases hi' : i = n + 1
        · rw [hi', c3]; rfl
        · rw [c4 i hi']; exact b3 i (by omega)
      · rw [c4 j (by omega)]; exact b4 j (by omega) hj'
  obtain ⟨mem, b1, b2, b3, b4⟩ := key (W - 1) (Nat.le_refl _)
  refine ⟨mem, ?_, ⟨b2, fun i hi => b3 i (by omega)⟩, fun j hj hj' => b4 j (by omega) hj'⟩
  simp only [layout, a1, bind, Except.bind]
  simp only [bind, Except.bind] at b1
  exact b1

theorem tabAt_ok (h : Fits T W) {mem : List Nat} (hm : Header T W mem) {i : Nat} (hi : i < W) : tabAt T W mem i = .ok (tabN T W i) := by
  simp only [tabAt, memrows_ok h hi, memcols_ok h hi, at_ok (hm.head i hi), bind, Except.bind]; rfl

theorem tabBefore_ok (h : Fits T W) {mem : List Nat} (hm : Header T W mem) {i : Nat} (hi : i < W) : tabBefore T W mem (i + 2) = .ok (tabN T W i) := by
  rw [tabBefore, if_pos (by omega), show i + 2 - 2 = i by omega]; exact tabAt_ok h hm hi

/-- Position of a cell. -/
def posN (T : Topo) (W i y x : Nat) : Nat := (tabN T W i).index y x

theorem posN_ge {i y x : Nat} : offN T W i ≤ posN T W i y x := Nat.le_add_right _ _

theorem posN_lt {i y x : Nat} (hy : y < rowsN T i) (hx : x < colsN T W i) : posN T W i y x < offN T W (i + 1) := by
  have h1 : colsN T W i * (y + 1) ≤ colsN T W i * rowsN T i := Nat.mul_le_mul_left _ hy
  rw [Nat.mul_comm (colsN T W i) (rowsN T i), Nat.mul_succ] at h1
  show offN T W i + (x + colsN T W i * y) < offN T W i + rowsN T i * colsN T W i
  omega

theorem posN_inj {i y x y' x' : Nat} (hx : x < colsN T W i) (hx' : x' < colsN T W i) (h : posN T W i y x = posN T W i y' x') : y = y' ∧ x = x' := by
  have h1 : x + colsN T W i * y = x' + colsN T W i * y' := by
    have : offN T W i + (x + colsN T W i * y) = offN T W i + (x' + colsN T W i * y') := h
    omega
  have h2 : x = x' := by
    have := congrArg (· % colsN T W i) h1
    simpa [Nat.add_mul_mod_self_left, Nat.mod_eq_of_lt hx, Nat.mod_eq_of_lt hx'] using this
  subst h2
  exact ⟨Nat.eq_of_mul_eq_mul_left (show 0 < colsN T W i by omega) (by omega), rfl⟩

/-- The effect of `setmax` on a cell. -/
def upd (old : Nat) (p : Nat × Nat) : Nat :=
  if p.1 = old >>> 8 then old ||| p.2 else if old >>> 8 < p.1 then (p.1 <<< 8) ||| p.2 else old

theorem setmax_ok {mem : List Nat} {t : Tab} {y x s c old : Nat} (h : mem[t.index y x]? = some old) :
    ∃ mem', setmax mem t y x s c = .ok mem' ∧ mem'.length = mem.length ∧ mem'[t.index y x]? = some (upd old (s, c)) ∧ ∀ j : Nat, j ≠ t.index y x → mem'[j]? = mem[j]? := by
  have hlt : t.index y x < mem.length := by
    by_contra hc
    rw [List.getElem?_eq_none (by omega)] at h; cases h
  unfold upd
  simp only [setmax, at_ok h, bind, Except.bind]
  split
  · exact put_get' hlt
  · split
    · exact put_get' hlt
    · exact ⟨mem, rfl, rfl, h, fun _ _ => rfl⟩

theorem shiftRight_small {c : Nat} (h : c < 256) : c >>> 8 = 0 := by
  rw [Nat.shiftRight_eq_div_pow]; exact Nat.div_eq_of_lt h

theorem pack_score {s c : Nat} (h : c < 256) : ((s <<< 8) ||| c) >>> 8 = s := by
  rw [Nat.shiftRight_or_distrib, shiftRight_small h, Nat.or_zero, Nat.shiftLeft_shiftRight]

theorem or_score {v c : Nat} (h : c < 256) : (v ||| c) >>> 8 = v >>> 8 := by
  rw [Nat.shiftRight_or_distrib, shiftRight_small h, Nat.or_zero]

theorem testBit_mask {v k : Nat} : (v &&& 255).testBit k = (v.testBit k && decide (k < 8)) := by
  rw [Nat.testBit_and, show (255 : Nat) = 2 ^ 8 - 1 from rfl, Nat.testBit_two_pow_sub_one]

theorem testBit_small {c k : Nat} (h : c < 256) (hk : c.testBit k = true) : k < 8 := by
  by_contra hc
  have : c < 2 ^ k := Nat.lt_of_lt_of_le h (show 2 ^ 8 ≤ 2 ^ k from Nat.pow_le_pow_right (by omega) (by omega))
  rw [Nat.testBit_lt_two_pow this] at hk; cases hk

/-- What a cell holds after updates with the list `L` of scores and corners. -/
structure Cell (v : Nat) (L : List (Nat × Nat)) : Prop where
  le : ∀ p ∈ L, p.1 ≤ v >>> 8
  bits : ∀ k, (v &&& 255).testBit k = true → ∃ p ∈ L, p.1 = v >>> 8 ∧ p.2.testBit k = true
  some : L ≠ [] → v &&& 255 ≠ 0
  zero : L = [] → v = 0
  all : ∀ p ∈ L, p.1 = v >>> 8 → ∀ k, p.2.testBit k = true → k < 8 → (v &&& 255).testBit k = true

theorem ne_zero_of_bit {n k : Nat} (h : n.testBit k = true) : n ≠ 0 := by
  intro e; rw [e, Nat.zero_testBit] at h; cases h

theorem Cell.step {v : Nat} {L : List (Nat × Nat)} (h : Cell v L) {p : Nat × Nat} (h0 : p.2 ≠ 0) (h1 : p.2 < 256) : Cell (upd v p) (L ++ [p]) := by
  obtain ⟨k0, hk0⟩ := Nat.exists_testBit_of_ne_zero h0
  have hk8 := testBit_small h1 hk0
  unfold upd
  by_cases e1 : p.1 = v >>> 8
  · rw [if_pos e1]
    refine ⟨fun q hq => ?_, fun k hk => ?_, fun _ => ?_, by simp, fun q hq he k hk hk8' => ?_⟩
    · rw [or_score h1]
      rcases List.mem_append.mp hq with hq | hq
      · exact h.le q hq
      · rw [List.mem_singleton.mp hq, e1]
    · rw [or_score h1]
      rw [testBit_mask, Nat.testBit_or, Bool.and_eq_true, Bool.or_eq_true] at hk
      rcases hk.1 with hk' | hk'
      · obtain ⟨q, q1, q2⟩ := h.bits k (by rw [testBit_mask, hk', hk.2]; rfl)
        exact ⟨q, List.mem_append_left _ q1, q2⟩
      · exact ⟨p, by simp, e1, hk'⟩
    · apply ne_zero_of_bit (k := k0)
      rw [testBit_mask, Nat.testBit_or, hk0, decide_eq_true hk8]; simp
    · rw [or_score h1] at he
      rw [testBit_mask, Nat.testBit_or, decide_eq_true hk8', Bool.and_true, Bool.or_eq_true]
      rcases List.mem_append.mp hq with hq | hq
      · have := h.all q hq he k hk hk8'
        rw [testBit_mask, Bool.and_eq_true] at this
        exact .inl this.1
      · rw [List.mem_singleton.mp hq] at hk; exact .inr hk
  · rw [if_neg e1]
    by_cases e2 : v >>> 8 < p.1
    · rw [if_pos e2]
      have hb : ∀ k, (((p.1 <<< 8) ||| p.2) &&& 255).testBit k = p.2.testBit k := by
        intro k
        rw [testBit_mask, Nat.testBit_or, Nat.testBit_shiftLeft]
        by_cases hk : k < 8
        · simp [hk, show ¬8 ≤ k by omega]
        · have : p.2.testBit k = false := by
            by_contra hc
            rw [Bool.not_eq_false] at hc
            exact hk (testBit_small h1 hc)
          simp [hk, this]
      refine ⟨fun q hq => ?_, fun k hk => ?_, fun _ => ?_, by simp, fun q hq he k hk _ => ?_⟩
      · rw [pack_score h1]
        rcases List.mem_append.mp hq with hq | hq
        · have := h.le q hq; omega
        · rw [List.mem_singleton.mp hq]
      · rw [pack_score h1]
        rw [hb] at hk
        exact ⟨p, by simp, rfl, hk⟩
      · apply ne_zero_of_bit (k := k0)
        rw [hb]; exact hk0
      · rw [pack_score h1] at he
        rw [hb]
        rcases List.mem_append.mp hq with hq | hq
        · have := h.le q hq; omega
        · rw [List.mem_singleton.mp hq] at hk; exact hk
    · rw [if_neg e2]
      refine ⟨fun q hq => ?_, fun k hk => ?_, fun _ => ?_, by simp, fun q hq he k hk hk8' => ?_⟩
      · rcases List.mem_append.mp hq with hq | hq
        · exact h.le q hq
        · rw [List.mem_singleton.mp hq]; omega
      · obtain ⟨q, q1, q2⟩ := h.bits k hk
        exact ⟨q, List.mem_append_left _ q1, q2⟩
      · by_cases hL : L = []
        · rw [h.zero hL, Nat.zero_shiftRight] at e1 e2
          omega
        · exact h.some hL
      · rcases List.mem_append.mp hq with hq | hq
        · exact h.all q hq he k hk hk8'
        · rw [List.mem_singleton.mp hq] at he; omega

theorem cell_fold {L : List (Nat × Nat)} (h : ∀ p ∈ L, p.2 ≠ 0 ∧ p.2 < 256) : Cell (L.foldl upd 0) L := by
  suffices ∀ (v : Nat) (done : List (Nat × Nat)), Cell v done → Cell (L.foldl upd v) (done ++ L) by
    exact this 0 [] ⟨by simp, fun k hk => by simp at hk, by simp, fun _ => rfl, by simp⟩
  induction L with
  | nil => intro v done hd; simpa using hd
  | cons p L ih =>
    intro v done hd
    have hp := h p List.mem_cons_self
    have := ih (fun q hq => h q (List.mem_cons_of_mem _ hq)) (upd v p) (done ++ [p]) (hd.step hp.1 hp.2)
    simpa using this

end Bus
end MM
