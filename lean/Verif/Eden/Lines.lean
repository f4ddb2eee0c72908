import Mathlib.Data.List.Chain
import Mathlib.Data.List.Count
import Mathlib.Tactic.Linarith
import Verif.Eden.Eden

/-! Lines and their scores. -/

namespace MM
namespace Eden

open Spec.Eden (Qb Ell Joined Works HLine VLine hLines vLines LinesWhole CellsWhole Path)

variable {P : Proc}

theorem Proc.has_iff {q : Qb} : P.has q = true ↔ Works P.edges q := by
  unfold Proc.has Works Joined
  rw [List.any_eq_true]
  constructor
  · rintro ⟨⟨a, b⟩, he, h⟩
    rcases Bool.or_eq_true _ _ ▸ h with h | h
    · have : a = q := of_decide_eq_true h
      subst this
      exact ⟨b, .inr he⟩
    · have : b = q := of_decide_eq_true h
      subst this
      exact ⟨a, .inl he⟩
  · rintro ⟨p, h | h⟩
    · exact ⟨_, h, by simp⟩
    · exact ⟨_, h, by simp⟩

theorem Proc.joined_iff {p q : Qb} : P.joined p q = true ↔ Joined P.edges p q := by
  unfold Proc.joined Joined
  rw [List.any_eq_true]
  constructor
  · rintro ⟨⟨a, b⟩, he, h⟩
    rcases Bool.or_eq_true _ _ ▸ h with h | h
    · obtain ⟨rfl, rfl⟩ := of_decide_eq_true h
      exact .inl he
    · obtain ⟨rfl, rfl⟩ := of_decide_eq_true h
      exact .inr he
  · rintro (h | h)
    · exact ⟨_, h, by simp⟩
    · exact ⟨_, h, by simp⟩

theorem joined_comm {α : Type} {E : List (α × α)} {p q : α} : Joined E p q ↔ Joined E q p := Or.comm

theorem works_of_joined {α : Type} {E : List (α × α)} {p q : α} (h : Joined E p q) : Works E p ∧ Works E q := ⟨⟨q, h.symm⟩, ⟨p, h⟩⟩

/-- An unbroken line from `a` to `b`. -/
def LineOn (here link : Nat → Bool) (a b : Nat) : Prop := (∀ i, a ≤ i → i ≤ b → here i = true) ∧ ∀ i, a ≤ i → i < b → link i = true

theorem LineOn.succ {here link : Nat → Bool} {a b : Nat} (h : a ≤ b) : LineOn here link a (b + 1) ↔ LineOn here link a b ∧ link b = true ∧ here (b + 1) = true := by
  constructor
  · rintro ⟨h1, h2⟩
    exact ⟨⟨fun i hi hj => h1 i hi (by omega), fun i hi hj => h2 i hi (by omega)⟩, h2 b h (by omega), h1 _ (by omega) (le_refl _)⟩
  · rintro ⟨⟨h1, h2⟩, h3, h4⟩
    refine ⟨fun i hi hj => ?_, fun i hi hj => ?_⟩
    · rcases Nat.lt_or_ge i (b + 1) with h | h
      · exact h1 i hi (by omega)
      · rw [show i = b + 1 by omega]; exact h4
    · rcases Nat.lt_or_ge i b with h | h
      · exact h2 i hi h
      · rw [show i = b by omega]; exact h3

theorem LineOn.self {here link : Nat → Bool} {a : Nat} : LineOn here link a a ↔ here a = true :=
  ⟨fun h => h.1 a (le_refl _) (le_refl _), fun h => ⟨fun i hi hj => by rw [show i = a by omega]; exact h, fun i hi hj => by omega⟩⟩

theorem track_spec (here link : Nat → Bool) (y : Nat) :
    ((track here link y).1 = none ↔ here y = false) ∧
    (∀ s, (track here link y).1 = some s → s ≤ y ∧ LineOn here link s y ∧ ∀ t, t < s → ¬ LineOn here link t y) ∧
    ∀ a, a ∈ (track here link y).2 ↔ a ≤ y ∧ LineOn here link a y ∧ ¬ (a = y ∧ 0 < y ∧ here (y - 1) = true ∧ link (y - 1) = false) := by
  induction y with
  | zero =>
    unfold track
    cases h : here 0 with
    | false =>
      refine ⟨by simp, by simp, fun a => ⟨fun ha => (by simp at ha), fun ⟨ha, hb, _⟩ => ?_⟩⟩
      have := hb.1 0 (by omega) (le_refl _)
      rw [h] at this; cases this
    | true =>
      refine ⟨by simp, fun s hs => ?_, fun a => ⟨fun ha => ?_, fun ⟨ha, _, _⟩ => ?_⟩⟩
      · have : s = 0 := by simpa using hs.symm
        subst this
        exact ⟨le_refl _, LineOn.self.mpr h, fun t ht => by omega⟩
      · have : a = 0 := by simpa using ha
        subst this
        exact ⟨le_refl _, LineOn.self.mpr h, by omega⟩
      · rw [show a = 0 by omega]; simp
  | succ y ih =>
    obtain ⟨i1, i2, i3⟩ := ih
    unfold track
    cases h : here (y + 1) with
    | false =>
      refine ⟨by simp, by simp, fun a => ⟨fun ha => (by simp at ha), fun ⟨ha, hb, _⟩ => ?_⟩⟩
      have := hb.1 (y + 1) ha (le_refl _)
      rw [h] at this; cases this
    | true =>
      rw [if_pos rfl]
      cases hs : (track here link y).1 with
      | none =>
        have hy : here y = false := i1.mp hs
        have hno : ∀ t, t ≤ y → ¬ LineOn here link t (y + 1) := fun t ht hl => by
          have := hl.1 y ht (by omega)
          rw [hy] at this; cases this
        refine ⟨by simp, fun s hs => ?_, fun a => ⟨fun ha => ?_, fun ⟨ha, hb, _⟩ => ?_⟩⟩
        · have : s = y + 1 := by simpa using hs.symm
          subst this
          exact ⟨le_refl _, LineOn.self.mpr h, fun t ht => hno t (by omega)⟩
        · have : a = y + 1 := by simpa using ha
          subst this
          refine ⟨le_refl _, LineOn.self.mpr h, fun ⟨_, _, hc, _⟩ => ?_⟩
          rw [Nat.add_sub_cancel, hy] at hc; cases hc
        · rcases Nat.lt_or_ge y a with hlt | hge
          · rw [show a = y + 1 by omega]; simp
          · exact absurd hb (hno a hge)
      | some s0 =>
        obtain ⟨s1, s2, s3⟩ := i2 s0 hs
        have hy : here y = true := s2.1 y s1 (le_refl _)
        dsimp only
        cases hl : link y with
        | true =>
          rw [if_pos rfl]
          refine ⟨by simp, fun s hs => ?_, fun a => ?_⟩
          · have : s = s0 := by simpa using hs.symm
            subst this
            exact ⟨by omega, (LineOn.succ s1).mpr ⟨s2, hl, h⟩, fun t ht hb => s3 t ht ((LineOn.succ (by omega)).mp hb).1⟩
          · rw [List.mem_range'_1]
            constructor
            · rintro ⟨ha, hb⟩
              refine ⟨by omega, ⟨fun i hi hj => ((LineOn.succ s1).mpr ⟨s2, hl, h⟩).1 i (by omega) hj, fun i hi hj => ((LineOn.succ s1).mpr ⟨s2, hl, h⟩).2 i (by omega) hj⟩, ?_⟩
              rintro ⟨_, _, _, hc⟩
              rw [Nat.add_sub_cancel, hl] at hc; cases hc
            · rintro ⟨ha, hb, _⟩
              refine ⟨?_, by omega⟩
              by_contra hlt
              exact s3 a (by omega) ((LineOn.succ (by omega)).mp hb).1
        | false =>
          rw [if_neg (by simp)]
          have hno : ∀ t, t ≤ y → ¬ LineOn here link t (y + 1) := fun t ht hb => by
            have := ((LineOn.succ ht).mp hb).2.1
            rw [hl] at this; cases this
          refine ⟨by simp, fun s hs => ?_, fun a => ⟨fun ha => (by simp at ha), fun ⟨ha, hb, hc⟩ => ?_⟩⟩
          · have : s = y + 1 := by simpa using hs.symm
            subst this
            exact ⟨le_refl _, LineOn.self.mpr h, fun t ht => hno t (by omega)⟩
          · rcases Nat.lt_or_ge y a with hlt | hge
            · exact absurd ⟨by omega, by omega, by rw [Nat.add_sub_cancel]; exact hy, by rw [Nat.add_sub_cancel]; exact hl⟩ hc
            · exact absurd hb (hno a hge)

theorem lineOn_h {y : Int} {a b k : Nat} :
    LineOn (fun x => P.has ⟨x, y, 0, k⟩) (fun x => P.joined ⟨x, y, 0, k⟩ ⟨(x + 1 : Nat), y, 0, k⟩) a b ↔ HLine P.edges y a b k := by
  unfold LineOn HLine
  constructor
  · rintro ⟨h1, h2⟩
    refine ⟨fun x hx hb => ?_, fun x hx hb => ?_⟩
    · obtain ⟨n, rfl⟩ := Int.eq_ofNat_of_zero_le (show 0 ≤ x by omega)
      exact Proc.has_iff.mp (h1 n (by omega) (by omega))
    · obtain ⟨n, rfl⟩ := Int.eq_ofNat_of_zero_le (show 0 ≤ x by omega)
      have := Proc.joined_iff.mp (h2 n (by omega) (by omega))
      push_cast at this
      exact this
  · rintro ⟨h1, h2⟩
    refine ⟨fun x hx hb => Proc.has_iff.mpr (h1 x (by omega) (by omega)), fun x hx hb => Proc.joined_iff.mpr ?_⟩
    push_cast
    exact h2 x (by omega) (by omega)

theorem lineOn_v {x : Int} {a b k : Nat} :
    LineOn (fun y => P.has ⟨x, y, 1, k⟩) (fun y => P.joined ⟨x, y, 1, k⟩ ⟨x, (y + 1 : Nat), 1, k⟩) a b ↔ VLine P.edges x a b k := by
  unfold LineOn VLine
  constructor
  · rintro ⟨h1, h2⟩
    refine ⟨fun x hx hb => ?_, fun x hx hb => ?_⟩
    · obtain ⟨n, rfl⟩ := Int.eq_ofNat_of_zero_le (show 0 ≤ x by omega)
      exact Proc.has_iff.mp (h1 n (by omega) (by omega))
    · obtain ⟨n, rfl⟩ := Int.eq_ofNat_of_zero_le (show 0 ≤ x by omega)
      have := Proc.joined_iff.mp (h2 n (by omega) (by omega))
      push_cast at this
      exact this
  · rintro ⟨h1, h2⟩
    refine ⟨fun x hx hb => Proc.has_iff.mpr (h1 x (by omega) (by omega)), fun x hx hb => Proc.joined_iff.mpr ?_⟩
    push_cast
    exact h2 x (by omega) (by omega)

theorem hscore_spec {y a b : Int} (hy : 0 ≤ y ∧ y < P.N) (ha : 0 ≤ a) (hab : a ≤ b) (hb : b < P.M) :
    ∃ n, P.hscore y a b = .ok n ∧ n ≤ hLines P.edges P.L y a b ∧ ((a < b ∨ LinesWhole P.edges) → n = hLines P.edges P.L y a b) := by
  obtain ⟨a, rfl⟩ := Int.eq_ofNat_of_zero_le ha
  obtain ⟨b, rfl⟩ := Int.eq_ofNat_of_zero_le (ha.trans hab)
  unfold Proc.hscore hLines
  rw [if_pos ⟨hy.1, hy.2, ha, hab, hb⟩]
  have key := fun k : Nat => (track_spec (fun x => P.has ⟨x, y, 0, k⟩) (fun x => P.joined ⟨x, y, 0, k⟩ ⟨(x + 1 : Nat), y, 0, k⟩) b).2.2 a
  simp only [Int.toNat_natCast]
  refine ⟨_, rfl, ?_, fun h => ?_⟩
  · refine List.countP_mono_left fun k _ hk => ?_
    simp only [decide_eq_true_eq] at hk ⊢
    exact lineOn_h.mp ((key k).mp hk).2.1
  · refine List.countP_congr fun k _ => ?_
    simp only [decide_eq_true_eq]
    rw [key k]
    constructor
    · exact fun h => lineOn_h.mp h.2.1
    · intro hl
      refine ⟨by omega, lineOn_h.mpr hl, ?_⟩
      rintro ⟨hc, h0, hw, hn⟩
      rcases h with h | h
      · omega
      · have h1 := Proc.has_iff.mp hw
        have h2 := hl.1 b (by omega) (by omega)
        have h3 : ((b - 1 : Nat) : Int) + 1 = b := by omega
        have h4 := h.1 _ y k h1 (by rw [h3]; exact h2)
        rw [h3] at h4
        have h5 := Proc.joined_iff.mpr h4
        rw [show b - 1 + 1 = b by omega] at hn
        rw [h5] at hn
        cases hn

theorem vscore_spec {x a b : Int} (hx : 0 ≤ x ∧ x < P.M) (ha : 0 ≤ a) (hab : a ≤ b) (hb : b < P.N) :
    ∃ n, P.vscore x a b = .ok n ∧ n ≤ vLines P.edges P.L x a b ∧ ((a < b ∨ LinesWhole P.edges) → n = vLines P.edges P.L x a b) := by
  obtain ⟨a, rfl⟩ := Int.eq_ofNat_of_zero_le ha
  obtain ⟨b, rfl⟩ := Int.eq_ofNat_of_zero_le (ha.trans hab)
  unfold Proc.vscore vLines
  rw [if_pos ⟨hx.1, hx.2, ha, hab, hb⟩]
  have key := fun k : Nat => (track_spec (fun y => P.has ⟨x, y, 1, k⟩) (fun y => P.joined ⟨x, y, 1, k⟩ ⟨x, (y + 1 : Nat), 1, k⟩) b).2.2 a
  simp only [Int.toNat_natCast]
  refine ⟨_, rfl, ?_, fun h => ?_⟩
  · refine List.countP_mono_left fun k _ hk => ?_
    simp only [decide_eq_true_eq] at hk ⊢
    exact lineOn_v.mp ((key k).mp hk).2.1
  · refine List.countP_congr fun k _ => ?_
    simp only [decide_eq_true_eq]
    rw [key k]
    constructor
    · exact fun h => lineOn_v.mp h.2.1
    · intro hl
      refine ⟨by omega, lineOn_v.mpr hl, ?_⟩
      rintro ⟨hc, h0, hw, hn⟩
      rcases h with h | h
      · omega
      · have h1 := Proc.has_iff.mp hw
        have h2 := hl.1 b (by omega) (by omega)
        have h3 : ((b - 1 : Nat) : Int) + 1 = b := by omega
        have h4 := h.2 x _ k h1 (by rw [h3]; exact h2)
        rw [h3] at h4
        have h5 := Proc.joined_iff.mpr h4
        rw [show b - 1 + 1 = b by omega] at hn
        rw [h5] at hn
        cases hn

/-! Bundles. -/

theorem mem_upTo {a b x : Int} : x ∈ upTo a b ↔ a ≤ x ∧ x < b := by
  unfold upTo
  rw [List.mem_map]
  constructor
  · rintro ⟨i, hi, rfl⟩
    rw [List.mem_range] at hi
    omega
  · rintro ⟨h1, h2⟩
    exact ⟨(x - a).toNat, List.mem_range.mpr (by omega), by omega⟩

theorem mem_downTo {a b x : Int} : x ∈ downTo a b ↔ b < x ∧ x ≤ a := by
  unfold downTo
  rw [List.mem_map]
  constructor
  · rintro ⟨i, hi, rfl⟩
    rw [List.mem_range] at hi
    omega
  · rintro ⟨h1, h2⟩
    exact ⟨(a - x).toNat, List.mem_range.mpr (by omega), by omega⟩

theorem range_chain (n : Nat) : (List.range n).IsChain fun i j => j = i + 1 := by
  rw [List.isChain_iff_getElem]
  intro i hi
  simp

theorem upTo_chain (a b : Int) : (upTo a b).IsChain fun x y => y = x + 1 := by
  unfold upTo
  rw [List.isChain_map]
  refine (range_chain _).imp fun i j h => ?_
  omega

theorem downTo_chain (a b : Int) : (downTo a b).IsChain fun x y => x = y + 1 := by
  unfold downTo
  rw [List.isChain_map]
  refine (range_chain _).imp fun i j h => ?_
  omega

/-- The numbers from `a` to `b`, up or down. -/
def arm (a b : Int) : List Int := if a < b then upTo a (b + 1) else downTo a (b - 1)

theorem mem_arm {a b x : Int} : x ∈ arm a b ↔ min a b ≤ x ∧ x ≤ max a b := by
  unfold arm
  split
  · rw [mem_upTo]; omega
  · rw [mem_downTo]; omega

theorem arm_length (a b : Int) : ((arm a b).length : Int) = max a b - min a b + 1 := by
  unfold arm upTo downTo
  split <;> rw [List.length_map, List.length_range] <;> omega

theorem arm_nodup (a b : Int) : (arm a b).Nodup := by
  unfold arm upTo downTo
  split
  · exact (List.nodup_range).map fun i j h => by simpa using h
  · exact (List.nodup_range).map fun i j h => by simpa using h

theorem arm_head (a b : Int) : (arm a b).head? = some a := by
  unfold arm upTo downTo
  split
  · rw [List.head?_map, List.head?_range, if_neg (by omega)]; simp
  · rw [List.head?_map, List.head?_range, if_neg (by omega)]; simp

theorem arm_last (a b : Int) : (arm a b).getLast? = some b := by
  unfold arm upTo downTo
  split
  · rw [List.getLast?_map, List.getLast?_range, if_neg (by omega), Option.map_some]
    congr 1; omega
  · rw [List.getLast?_map, List.getLast?_range, if_neg (by omega), Option.map_some]
    congr 1; omega

theorem arm_chain (a b : Int) {r : Int → Int → Prop} (hr : ∀ x y, r x y → r y x) : (arm a b).IsChain r ↔ ∀ x, min a b ≤ x → x < max a b → r x (x + 1) := by
  unfold arm
  split
  · constructor
    · intro h x h1 h2
      unfold upTo at h
      rw [List.isChain_iff_getElem] at h
      have := h (x - a).toNat (by rw [List.length_map, List.length_range]; omega)
      simp only [List.getElem_map, List.getElem_range] at this
      rw [show a + (((x - a).toNat : Nat) : Int) = x by omega, show a + (((x - a).toNat + 1 : Nat) : Int) = x + 1 by omega] at this
      exact this
    · intro h
      unfold upTo
      rw [List.isChain_iff_getElem]
      intro i hi
      rw [List.length_map, List.length_range] at hi
      simp only [List.getElem_map, List.getElem_range]
      have := h (a + (i : Int)) (by omega) (by omega)
      rw [show a + ((i + 1 : Nat) : Int) = a + i + 1 by omega]
      exact this
  · constructor
    · intro h x h1 h2
      unfold downTo at h
      rw [List.isChain_iff_getElem] at h
      have := h (a - x - 1).toNat (by rw [List.length_map, List.length_range]; omega)
      simp only [List.getElem_map, List.getElem_range] at this
      rw [show a - (((a - x - 1).toNat : Nat) : Int) = x + 1 by omega, show a - (((a - x - 1).toNat + 1 : Nat) : Int) = x by omega] at this
      exact hr _ _ this
    · intro h
      unfold downTo
      rw [List.isChain_iff_getElem]
      intro i hi
      rw [List.length_map, List.length_range] at hi
      simp only [List.getElem_map, List.getElem_range]
      have := h (a - ((i + 1 : Nat) : Int)) (by omega) (by omega)
      rw [show a - ((i + 1 : Nat) : Int) + 1 = a - i by omega] at this
      exact hr _ _ this

theorem containsLine_iff {line : List Qb} : P.containsLine line = true ↔ (∀ q ∈ line, Works P.edges q) ∧ line.IsChain (Joined P.edges) := by
  unfold Proc.containsLine
  rw [Bool.and_eq_true, List.all_eq_true]
  refine and_congr ⟨fun h q hq => Proc.has_iff.mp (h q hq), fun h q hq => Proc.has_iff.mpr (h q hq)⟩ ?_
  induction line with
  | nil => simp
  | cons p line ih =>
    cases line with
    | nil => simp
    | cons q line =>
      rw [List.isChain_cons_cons, ← ih]
      simp only [List.tail_cons, List.zip_cons_cons, List.all_cons, Bool.and_eq_true]
      rw [Proc.joined_iff, joined_comm]

/-- A horizontal line of qubits. -/
def hq (y : Int) (k : Nat) (x : Int) : Qb := ⟨x, y, 0, k⟩

/-- A vertical line of qubits. -/
def vq (x : Int) (k : Nat) (y : Int) : Qb := ⟨x, y, 1, k⟩

theorem containsLine_h {y a b : Int} {k : Nat} : P.containsLine ((arm a b).map (hq y k)) = true ↔ HLine P.edges y (min a b) (max a b) k := by
  rw [containsLine_iff, List.isChain_map, arm_chain _ _ fun _ _ h => joined_comm.mp h]
  refine and_congr ⟨fun h x h1 h2 => h _ (List.mem_map_of_mem (mem_arm.mpr ⟨h1, h2⟩)), fun h q hq' => ?_⟩ Iff.rfl
  obtain ⟨x, hx, rfl⟩ := List.mem_map.mp hq'
  exact h x (mem_arm.mp hx).1 (mem_arm.mp hx).2

theorem containsLine_v {x a b : Int} {k : Nat} : P.containsLine ((arm a b).map (vq x k)) = true ↔ VLine P.edges x (min a b) (max a b) k := by
  rw [containsLine_iff, List.isChain_map, arm_chain _ _ fun _ _ h => joined_comm.mp h]
  refine and_congr ⟨fun h x h1 h2 => h _ (List.mem_map_of_mem (mem_arm.mpr ⟨h1, h2⟩)), fun h q hq' => ?_⟩ Iff.rfl
  obtain ⟨x, hx, rfl⟩ := List.mem_map.mp hq'
  exact h x (mem_arm.mp hx).1 (mem_arm.mp hx).2

theorem hbundle_eq (y0 x0 x1 : Int) : P.hbundle y0 x0 x1 = ((List.range P.L).map fun k => (arm x0 x1).map (hq y0 k)).filter P.containsLine := rfl

theorem vbundle_eq (x0 y0 y1 : Int) : P.vbundle x0 y0 y1 = ((List.range P.L).map fun k => (arm y1 y0).map (vq x0 k)).filter P.containsLine := by
  have : (if y0 < y1 then downTo y1 (y0 - 1) else upTo y1 (y0 + 1)) = arm y1 y0 := by
    unfold arm
    by_cases h : y0 < y1
    · rw [if_pos h, if_neg (by omega)]
    · by_cases h' : y1 < y0
      · rw [if_neg h, if_pos h']
      · have : y0 = y1 := by omega
        subst this
        rw [if_neg h, if_neg h]
        unfold upTo downTo
        rw [show (y0 + 1 - y0).toNat = 1 by omega, show (y0 - (y0 - 1)).toNat = 1 by omega]
        simp
  unfold Proc.vbundle
  dsimp only
  rw [this]
  rfl

theorem mem_hbundle {y0 x0 x1 : Int} {c : List Qb} :
    c ∈ P.hbundle y0 x0 x1 ↔ ∃ k < P.L, c = (arm x0 x1).map (hq y0 k) ∧ HLine P.edges y0 (min x0 x1) (max x0 x1) k := by
  rw [hbundle_eq, List.mem_filter, List.mem_map]
  constructor
  · rintro ⟨⟨k, hk, rfl⟩, h⟩
    exact ⟨k, List.mem_range.mp hk, rfl, containsLine_h.mp h⟩
  · rintro ⟨k, hk, rfl, h⟩
    exact ⟨⟨k, List.mem_range.mpr hk, rfl⟩, containsLine_h.mpr h⟩

theorem mem_vbundle {x0 y0 y1 : Int} {c : List Qb} :
    c ∈ P.vbundle x0 y0 y1 ↔ ∃ k < P.L, c = (arm y1 y0).map (vq x0 k) ∧ VLine P.edges x0 (min y0 y1) (max y0 y1) k := by
  rw [vbundle_eq, List.mem_filter, List.mem_map, min_comm, max_comm]
  constructor
  · rintro ⟨⟨k, hk, rfl⟩, h⟩
    exact ⟨k, List.mem_range.mp hk, rfl, containsLine_v.mp h⟩
  · rintro ⟨k, hk, rfl, h⟩
    exact ⟨⟨k, List.mem_range.mpr hk, rfl⟩, containsLine_v.mpr h⟩

theorem hbundle_length (y0 x0 x1 : Int) : (P.hbundle y0 x0 x1).length = hLines P.edges P.L y0 (min x0 x1) (max x0 x1) := by
  rw [hbundle_eq, ← List.countP_eq_length_filter, List.countP_map]
  unfold hLines
  refine List.countP_congr fun k _ => ?_
  simp only [Function.comp_apply, decide_eq_true_eq]
  exact containsLine_h

theorem vbundle_length (x0 y0 y1 : Int) : (P.vbundle x0 y0 y1).length = vLines P.edges P.L x0 (min y0 y1) (max y0 y1) := by
  rw [vbundle_eq, ← List.countP_eq_length_filter, List.countP_map]
  unfold vLines
  refine List.countP_congr fun k _ => ?_
  simp only [Function.comp_apply, decide_eq_true_eq]
  rw [containsLine_v, min_comm, max_comm]

theorem hbundle_pairwise (y0 x0 x1 : Int) : (P.hbundle y0 x0 x1).Pairwise fun c d => ∀ q ∈ c, q ∉ d := by
  rw [hbundle_eq]
  refine List.Pairwise.filter _ ?_
  rw [List.pairwise_map]
  refine (List.pairwise_lt_range).imp fun {j k} hlt q h1 h2 => ?_
  obtain ⟨a, -, rfl⟩ := List.mem_map.mp h1
  obtain ⟨b, -, e⟩ := List.mem_map.mp h2
  have := congrArg Qb.k e
  simp only [hq] at this
  omega

theorem vbundle_pairwise (x0 y0 y1 : Int) : (P.vbundle x0 y0 y1).Pairwise fun c d => ∀ q ∈ c, q ∉ d := by
  rw [vbundle_eq]
  refine List.Pairwise.filter _ ?_
  rw [List.pairwise_map]
  refine (List.pairwise_lt_range).imp fun {j k} hlt q h1 h2 => ?_
  obtain ⟨a, -, rfl⟩ := List.mem_map.mp h1
  obtain ⟨b, -, e⟩ := List.mem_map.mp h2
  have := congrArg Qb.k e
  simp only [vq] at this
  omega

end Eden
end MM
