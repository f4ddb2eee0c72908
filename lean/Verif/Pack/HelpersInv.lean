import Verif.Pack.Helpers
import Verif.Spec.Pack
import Mathlib.Order.Interval.Finset.Basic
import Mathlib.Data.Int.Interval
import Mathlib.Data.Finset.Prod
import Mathlib.Data.Finset.Card
import Mathlib.Algebra.Order.BigOperators.Group.Finset

/-! What the functions that evaluate packings compute. -/

namespace MM
namespace Pack

open Spec.Pack

theorem entry_ok {sizes pos : List (Int × Int)} (hl : pos.length = sizes.length) {i : Nat} (hi : i < sizes.length) :
    ∃ r, (place sizes pos)[i]? = some r ∧ entry sizes pos i = .ok ((r.w, r.h), r.x, r.y) := by
  refine ⟨⟨(pos[i]'(by omega)).1, (pos[i]'(by omega)).2, sizes[i].1, sizes[i].2⟩, ?_, ?_⟩
  · simp [place, List.getElem?_zipWith, hi, hl]
  · simp [entry, hi, hl]

theorem place_mem {sizes pos : List (Int × Int)} {r : Placed} :
    r ∈ place sizes pos ↔ ∃ i : Nat, (place sizes pos)[i]? = some r := List.mem_iff_getElem?

theorem bboxFrom_spec {sizes pos : List (Int × Int)} (hl : pos.length = sizes.length) :
    ∀ (is : List Nat) (mw mh : Int), (∀ i ∈ is, i < sizes.length) →
      ∃ W H, bboxFrom sizes pos is mw mh = .ok (W, H) ∧ mw ≤ W ∧ mh ≤ H ∧
        (∀ i ∈ is, ∀ r, (place sizes pos)[i]? = some r → r.x + r.w ≤ W ∧ r.y + r.h ≤ H) ∧
        ∀ W' H', mw ≤ W' → mh ≤ H' → (∀ i ∈ is, ∀ r, (place sizes pos)[i]? = some r → r.x + r.w ≤ W' ∧ r.y + r.h ≤ H') →
          W ≤ W' ∧ H ≤ H' := by
  intro is
  induction is with
  | nil => intro mw mh _; exact ⟨mw, mh, rfl, by omega, by omega, by simp, fun _ _ a b _ => ⟨a, b⟩⟩
  | cons i is ih =>
    intro mw mh h
    obtain ⟨r, h1, h2⟩ := entry_ok hl (h i (by simp))
    obtain ⟨W, H, k1, k2, k3, k4, k5⟩ := ih (if r.w + r.x > mw then r.w + r.x else mw)
      (if r.h + r.y > mh then r.h + r.y else mh) (fun i hi => h i (by simp [hi]))
    refine ⟨W, H, ?_, ?_, ?_, ?_, ?_⟩
    · unfold bboxFrom
      rw [h2]
      exact k1
    · split at k2 <;> omega
    · split at k3 <;> omega
    · intro j hj r' hr'
      rcases List.mem_cons.mp hj with rfl | hj
      · rw [h1] at hr'
        cases hr'
        constructor
        · split at k2 <;> omega
        · split at k3 <;> omega
      · exact k4 j hj r' hr'
    · intro W' H' a b c
      have := c i (by simp) r h1
      refine k5 W' H' ?_ ?_ (fun j hj => c j (by simp [hj]))
      · split <;> omega
      · split <;> omega

theorem overlap_iff {a b : Placed} (ha : 0 < a.w ∧ 0 < a.h) (hb : 0 < b.w ∧ 0 < b.h) : Overlap a b ↔ ¬ Apart a b := by
  unfold Overlap Apart Covers
  constructor
  · rintro ⟨x, y, h⟩
    omega
  · intro h
    exact ⟨max a.x b.x, max a.y b.y, by omega⟩

theorem overlapWith_spec {sizes pos : List (Int × Int)} (hl : pos.length = sizes.length) {i : Nat} {a : Placed} :
    ∀ js : List Nat, (∀ j ∈ js, j < sizes.length) →
      (overlapWith sizes pos i ((a.w, a.h), a.x, a.y) js = .ok none ∧
        ∀ j ∈ js, j ≠ i → ∀ b, (place sizes pos)[j]? = some b → Apart a b) ∨
      ∃ pre j post b, js = pre ++ j :: post ∧ overlapWith sizes pos i ((a.w, a.h), a.x, a.y) js = .ok (some j) ∧ j ≠ i ∧
        (place sizes pos)[j]? = some b ∧ ¬ Apart a b ∧
        ∀ j ∈ pre, j ≠ i → ∀ b, (place sizes pos)[j]? = some b → Apart a b := by
  intro js
  induction js with
  | nil => intro _; left; exact ⟨rfl, by simp⟩
  | cons j js ih =>
    intro h
    have ih := ih (fun j hj => h j (by simp [hj]))
    by_cases hji : j = i
    · have e : overlapWith sizes pos i ((a.w, a.h), a.x, a.y) (j :: js) = overlapWith sizes pos i ((a.w, a.h), a.x, a.y) js := by
        rw [overlapWith, if_pos hji]
      rw [e]
      rcases ih with ⟨h1, h2⟩ | ⟨pre, k, post, b, h1, h2, h3, h4, h5, h6⟩
      · left
        refine ⟨h1, fun k hk hne => ?_⟩
        rcases List.mem_cons.mp hk with rfl | hk
        · exact absurd hji hne
        · exact h2 k hk hne
      · right
        refine ⟨j :: pre, k, post, b, by rw [h1]; rfl, h2, h3, h4, h5, fun l hl hne => ?_⟩
        rcases List.mem_cons.mp hl with rfl | hl
        · exact absurd hji hne
        · exact h6 l hl hne
    · obtain ⟨b, h1, h2⟩ := entry_ok hl (h j (by simp))
      have e : overlapWith sizes pos i ((a.w, a.h), a.x, a.y) (j :: js) =
          if ¬ Apart a b then .ok (some j) else overlapWith sizes pos i ((a.w, a.h), a.x, a.y) js := by
        rw [overlapWith, if_neg hji, h2]
        show (if ¬ ((decide _ || decide _) = true) then _ else _) = _
        have : (decide (a.x + a.w ≤ b.x ∨ b.x + b.w ≤ a.x) || decide (a.y + a.h ≤ b.y ∨ b.y + b.h ≤ a.y)) = true ↔ Apart a b := by
          simp only [Bool.or_eq_true, decide_eq_true_eq, Apart]
          tauto
        simp only [this]
      rw [e]
      by_cases hA : Apart a b
      · rw [if_neg (by simpa using hA)]
        rcases ih with ⟨k1, k2⟩ | ⟨pre, k, post, b', k1, k2, k3, k4, k5, k6⟩
        · left
          refine ⟨k1, fun k hk hne c hc => ?_⟩
          rcases List.mem_cons.mp hk with rfl | hk
          · rw [h1] at hc; cases hc; exact hA
          · exact k2 k hk hne c hc
        · right
          refine ⟨j :: pre, k, post, b', by rw [k1]; rfl, k2, k3, k4, k5, fun l hl hne c hc => ?_⟩
          rcases List.mem_cons.mp hl with rfl | hl
          · rw [h1] at hc; cases hc; exact hA
          · exact k6 l hl hne c hc
      · right
        rw [if_pos hA]
        exact ⟨[], j, js, b, rfl, rfl, hji, h1, hA, by simp⟩

theorem overlapFrom_spec {sizes pos : List (Int × Int)} (hl : pos.length = sizes.length) :
    ∀ is : List Nat, (∀ i ∈ is, i < sizes.length) →
      (overlapFrom sizes pos is = .ok none ∧ ∀ i ∈ is, ∀ j < sizes.length, j ≠ i → ∀ a b, (place sizes pos)[i]? = some a →
        (place sizes pos)[j]? = some b → Apart a b) ∨
      ∃ pre i post j a b, is = pre ++ i :: post ∧ overlapFrom sizes pos is = .ok (some (i, j)) ∧ j < sizes.length ∧ j ≠ i ∧
        (place sizes pos)[i]? = some a ∧ (place sizes pos)[j]? = some b ∧ ¬ Apart a b ∧
        (∀ k < j, k ≠ i → ∀ b, (place sizes pos)[k]? = some b → Apart a b) ∧
        (∀ i ∈ pre, ∀ j < sizes.length, j ≠ i → ∀ a b, (place sizes pos)[i]? = some a →
          (place sizes pos)[j]? = some b → Apart a b) := by
  intro is
  induction is with
  | nil => intro _; left; exact ⟨rfl, by simp⟩
  | cons i is ih =>
    intro h
    have ih := ih (fun j hj => h j (by simp [hj]))
    obtain ⟨a, h1, h2⟩ := entry_ok hl (h i (by simp))
    rcases overlapWith_spec hl (i := i) (a := a) (List.range sizes.length) (fun j hj => List.mem_range.mp hj) with
      ⟨k1, k2⟩ | ⟨pre, j, post, b, k1, k2, k3, k4, k5, k6⟩
    · have e : overlapFrom sizes pos (i :: is) = overlapFrom sizes pos is := by
        rw [overlapFrom, h2]
        show (do
          match ← overlapWith sizes pos i ((a.w, a.h), a.x, a.y) (List.range sizes.length) with
          | some j => .ok (some (i, j))
          | none => overlapFrom sizes pos is : Except Err (Option (Nat × Nat))) = _
        rw [k1]
        rfl
      have hi : ∀ j < sizes.length, j ≠ i → ∀ a b, (place sizes pos)[i]? = some a → (place sizes pos)[j]? = some b → Apart a b := by
        intro j hj hne a' b ha hb
        rw [h1] at ha
        cases ha
        exact k2 j (List.mem_range.mpr hj) hne b hb
      rw [e]
      rcases ih with ⟨m1, m2⟩ | ⟨pre, i', post, j, a', b, m1, m2, m3, m4, m5, m6, m7, m8, m9⟩
      · left
        refine ⟨m1, fun k hk => ?_⟩
        rcases List.mem_cons.mp hk with rfl | hk
        · exact hi
        · exact m2 k hk
      · right
        refine ⟨i :: pre, i', post, j, a', b, by rw [m1]; rfl, m2, m3, m4, m5, m6, m7, m8, fun k hk => ?_⟩
        rcases List.mem_cons.mp hk with rfl | hk
        · exact hi
        · exact m9 k hk
    · right
      have hj : j < sizes.length := List.mem_range.mp (by rw [k1]; simp)
      refine ⟨[], i, is, j, a, b, rfl, ?_, hj, k3, h1, k4, k5, ?_, by simp⟩
      · rw [overlapFrom, h2]
        show (do
          match ← overlapWith sizes pos i ((a.w, a.h), a.x, a.y) (List.range sizes.length) with
          | some j => .ok (some (i, j))
          | none => overlapFrom sizes pos is : Except Err (Option (Nat × Nat))) = _
        rw [k2]
        rfl
      · intro k hk hne
        refine k6 k ?_ hne
        have hlen : pre.length = j := by
          have := congrArg (fun l => l[pre.length]?) k1
          simp at this
          have hlt : pre.length < sizes.length := by
            have := congrArg List.length k1
            simp at this
            omega
          simp [hlt] at this
          exact this
        have : (List.range sizes.length)[k]? = pre[k]? := by
          rw [k1, List.getElem?_append_left (by omega)]
        rw [List.getElem?_range (by omega)] at this
        exact List.mem_of_getElem? this.symm

/-- The unit squares of a rectangle. -/
noncomputable def squares (r : Placed) : Finset (Int × Int) := Finset.Ico r.x (r.x + r.w) ×ˢ Finset.Ico r.y (r.y + r.h)

theorem squares_card {r : Placed} (hw : 0 ≤ r.w) (hh : 0 ≤ r.h) : ((squares r).card : Int) = r.w * r.h := by
  unfold squares
  rw [Finset.card_product, Int.card_Ico, Int.card_Ico]
  push_cast
  rw [Int.toNat_of_nonneg (by omega), Int.toNat_of_nonneg (by omega)]
  congr 1 <;> omega

theorem mem_squares {r : Placed} {p : Int × Int} : p ∈ squares r ↔ Covers r p.1 p.2 := by
  simp only [squares, Finset.mem_product, Finset.mem_Ico, Covers]
  tauto

theorem area_union {l : List Placed} (hp : l.Pairwise Apart) (h0 : ∀ r ∈ l, 0 ≤ r.w ∧ 0 ≤ r.h) :
    ∃ S : Finset (Int × Int), (S.card : Int) = (l.map fun r => r.w * r.h).sum ∧ ∀ p ∈ S, ∃ r ∈ l, Covers r p.1 p.2 := by
  induction l with
  | nil => exact ⟨∅, by simp, by simp⟩
  | cons r l ih =>
    obtain ⟨h1, h2⟩ := List.pairwise_cons.mp hp
    obtain ⟨S, k1, k2⟩ := ih h2 (fun r hr => h0 r (by simp [hr]))
    refine ⟨squares r ∪ S, ?_, ?_⟩
    · rw [Finset.card_union_of_disjoint]
      · push_cast
        rw [squares_card (h0 r (by simp)).1 (h0 r (by simp)).2, k1]
        simp
      · rw [Finset.disjoint_left]
        intro p hp1 hp2
        obtain ⟨r', hr', hc⟩ := k2 p hp2
        have := h1 r' hr'
        have hc' := mem_squares.mp hp1
        unfold Apart at this
        unfold Covers at hc hc'
        omega
    · intro p hp
      rcases Finset.mem_union.mp hp with hp | hp
      · exact ⟨r, by simp, mem_squares.mp hp⟩
      · obtain ⟨r', hr', hc⟩ := k2 p hp
        exact ⟨r', by simp [hr'], hc⟩

/-- Rectangles that do not overlap and lie in a box have at most its area. -/
theorem area_le {l : List Placed} (hp : l.Pairwise Apart) (h0 : ∀ r ∈ l, 0 ≤ r.w ∧ 0 ≤ r.h) {W H : Int} (hW : 0 ≤ W) (hH : 0 ≤ H)
    (hin : ∀ r ∈ l, 0 ≤ r.x ∧ 0 ≤ r.y ∧ r.x + r.w ≤ W ∧ r.y + r.h ≤ H) : (l.map fun r => r.w * r.h).sum ≤ W * H := by
  obtain ⟨S, k1, k2⟩ := area_union hp h0
  have hsub : S ⊆ squares ⟨0, 0, W, H⟩ := by
    intro p hp
    obtain ⟨r, hr, hc⟩ := k2 p hp
    have := hin r hr
    rw [mem_squares]
    unfold Covers at *
    simp only
    omega
  have := Finset.card_le_card hsub
  have h2 : ((squares ⟨0, 0, W, H⟩).card : Int) = W * H := squares_card hW hH
  omega

end Pack
end MM
