import Mathlib.Algebra.Order.Ring.Abs
import Mathlib.Data.Rat.Cast.Order
import Mathlib.Tactic.Linarith
import Mathlib.Tactic.NormNum
import Mathlib.Tactic.Ring
import Verif.Lay.LayoutInv
import Verif.Lay.Components

/-! What the layout of components does. -/

namespace MM
namespace Lay

variable {V : Type} [DecidableEq V]

theorem mapM_forall₂ {α β : Type} {f : α → Except Err β} {l : List α} : ∀ {r : List β}, l.mapM f = .ok r ↔ List.Forall₂ (fun a b => f a = .ok b) l r := by
  induction l with
  | nil =>
    intro r
    rw [List.mapM_nil]
    constructor
    · intro h; cases h; exact .nil
    · intro h; cases h; rfl
  | cons a l ih =>
    intro r
    rw [List.mapM_cons]
    constructor
    · intro h
      simp only [bind, Except.bind] at h
      cases ha : f a with
      | error e => rw [ha] at h; cases h
      | ok b =>
        rw [ha] at h
        cases hl : l.mapM f with
        | error e => simp only [hl] at h; cases h
        | ok bs =>
          simp only [hl] at h
          cases h
          exact .cons ha (ih.mp hl)
    · intro h
      cases h with
      | cons ha hl =>
        simp only [bind, Except.bind, ha, ih.mpr hl]
        rfl

theorem unpack2_ok {p : Pt} {r : Rat × Rat} : unpack2 p = .ok r ↔ p = [r.1, r.2] := by
  unfold unpack2
  split
  · constructor
    · intro h; cases h; rfl
    · intro h; cases h; rfl
  · rename_i hne
    constructor
    · intro h; cases h
    · intro h; exact absurd h (hne _ _)

theorem mapM_unpack2 {pts : List Pt} {ps : List (Rat × Rat)} : pts.mapM unpack2 = .ok ps ↔ pts = ps.map fun r => [r.1, r.2] := by
  rw [mapM_forall₂]
  constructor
  · intro h
    induction h with
    | nil => rfl
    | cons h _ ih => rw [List.map_cons, ← ih, unpack2_ok.mp h]
  · rintro rfl
    induction ps with
    | nil => exact .nil
    | cons p ps ih => exact .cons (unpack2_ok.mpr rfl) ih

theorem foldl_min_le (l : List Rat) : ∀ a : Rat, l.foldl min a ≤ a ∧ ∀ x ∈ l, l.foldl min a ≤ x := by
  induction l with
  | nil => intro a; exact ⟨le_refl a, fun x h => nomatch h⟩
  | cons b l ih =>
    intro a
    obtain ⟨h1, h2⟩ := ih (min a b)
    rw [List.foldl_cons]
    refine ⟨h1.trans (min_le_left _ _), fun x hx => ?_⟩
    rcases List.mem_cons.mp hx with rfl | hx
    · exact h1.trans (min_le_right _ _)
    · exact h2 x hx

theorem foldl_min_mem (l : List Rat) : ∀ a : Rat, l.foldl min a ∈ a :: l := by
  induction l with
  | nil => intro a; exact List.mem_cons_self
  | cons b l ih =>
    intro a
    rw [List.foldl_cons]
    rcases List.mem_cons.mp (ih (min a b)) with h | h
    · rw [h]
      rcases min_choice a b with h | h
      · rw [h]; exact List.mem_cons_self
      · rw [h]; exact List.mem_cons_of_mem _ List.mem_cons_self
    · exact List.mem_cons_of_mem _ (List.mem_cons_of_mem _ h)

theorem foldl_max_mem' (l : List Rat) (a : Rat) : l.foldl max a ∈ a :: l := by
  rcases foldl_max_mem l a with h | h
  · rw [h]; exact List.mem_cons_self
  · exact List.mem_cons_of_mem _ h

/-- One coordinate: its values lie around the middle. -/
theorem spread (a : Rat) (l : List Rat) : let lo := l.foldl min a; let hi := l.foldl max a
    (∀ x ∈ a :: l, |x - (hi + lo) / 2| ≤ (hi - lo) / 2) ∧ (∃ x ∈ a :: l, ∃ y ∈ a :: l, hi - lo = x - y) ∧
      0 ≤ hi - lo ∧ ((∃ x ∈ a :: l, ∃ y ∈ a :: l, x ≠ y) → 0 < hi - lo) := by
  intro lo hi
  have hlo : ∀ x ∈ a :: l, lo ≤ x := by
    intro x hx
    rcases List.mem_cons.mp hx with rfl | hx
    · exact (foldl_min_le l x).1
    · exact (foldl_min_le l a).2 x hx
  have hhi : ∀ x ∈ a :: l, x ≤ hi := by
    intro x hx
    rcases List.mem_cons.mp hx with rfl | hx
    · exact (foldl_max_ge l x).1
    · exact (foldl_max_ge l a).2 x hx
  refine ⟨fun x hx => ?_, ⟨hi, foldl_max_mem' l a, lo, foldl_min_mem l a, rfl⟩, ?_, ?_⟩
  · have := hlo x hx
    have := hhi x hx
    rw [abs_le]
    constructor <;> linarith
  · have := hlo a List.mem_cons_self
    have := hhi a List.mem_cons_self
    linarith
  · rintro ⟨x, hx, y, hy, hxy⟩
    have := hlo x hx
    have := hhi x hx
    have := hlo y hy
    have := hhi y hy
    rcases lt_or_gt_of_ne hxy with h | h <;> linarith

/-- What `frame` returns. -/
theorem frame_spec {ps rpos : List (Rat × Rat)} {w h : Rat} (e : frame ps = .ok (rpos, w, h)) :
    (∃ cx cy : Rat, rpos = ps.map fun q => (q.1 - cx, q.2 - cy)) ∧ (∀ r ∈ rpos, |r.1| ≤ w / 2 ∧ |r.2| ≤ h / 2) ∧
      (∃ p ∈ ps, ∃ p' ∈ ps, w = p.1 - p'.1) ∧ (∃ p ∈ ps, ∃ p' ∈ ps, h = p.2 - p'.2) ∧ 0 ≤ w ∧ 0 ≤ h ∧
      ((∃ p ∈ ps, ∃ p' ∈ ps, p.1 ≠ p'.1) → 0 < w) ∧ ((∃ p ∈ ps, ∃ p' ∈ ps, p.2 ≠ p'.2) → 0 < h) := by
  cases ps with
  | nil => cases e
  | cons p ps =>
    unfold frame at e
    cases e
    obtain ⟨a1, ⟨x, hx, y, hy, a2⟩, a3, a4⟩ := spread p.1 (ps.map Prod.fst)
    obtain ⟨b1, ⟨x', hx', y', hy', b2⟩, b3, b4⟩ := spread p.2 (ps.map Prod.snd)
    have m1 : ∀ x ∈ p.1 :: ps.map Prod.fst, ∃ q ∈ p :: ps, q.1 = x := by
      intro x hx
      rw [← List.map_cons (f := Prod.fst)] at hx
      exact List.mem_map.mp hx
    have m2 : ∀ x ∈ p.2 :: ps.map Prod.snd, ∃ q ∈ p :: ps, q.2 = x := by
      intro x hx
      rw [← List.map_cons (f := Prod.snd)] at hx
      exact List.mem_map.mp hx
    have n1 : ∀ q ∈ p :: ps, q.1 ∈ p.1 :: ps.map Prod.fst := by
      intro q hq
      rw [← List.map_cons (f := Prod.fst)]
      exact List.mem_map_of_mem hq
    have n2 : ∀ q ∈ p :: ps, q.2 ∈ p.2 :: ps.map Prod.snd := by
      intro q hq
      rw [← List.map_cons (f := Prod.snd)]
      exact List.mem_map_of_mem hq
    refine ⟨⟨_, _, rfl⟩, ?_, ?_, ?_, a3, b3, ?_, ?_⟩
    · intro r hr
      obtain ⟨q, hq, rfl⟩ := List.mem_map.mp hr
      exact ⟨a1 _ (n1 q hq), b1 _ (n2 q hq)⟩
    · obtain ⟨q, hq, rfl⟩ := m1 x hx
      obtain ⟨q', hq', rfl⟩ := m1 y hy
      exact ⟨q, hq, q', hq', a2⟩
    · obtain ⟨q, hq, rfl⟩ := m2 x' hx'
      obtain ⟨q', hq', rfl⟩ := m2 y' hy'
      exact ⟨q, hq, q', hq', b2⟩
    · rintro ⟨q, hq, q', hq', hne⟩
      exact a4 ⟨_, n1 q hq, _, n1 q' hq', hne⟩
    · rintro ⟨q, hq, q', hq', hne⟩
      exact b4 ⟨_, n2 q hq, _, n2 q' hq', hne⟩

theorem frame_ok {ps : List (Rat × Rat)} (h : ps ≠ []) : ∃ r, frame ps = .ok r := by
  cases ps with
  | nil => exact absurd rfl h
  | cons p ps => exact ⟨_, rfl⟩

theorem side_eq (z : Rat) : side z = z.ceil := by
  unfold side
  have h1 : z.ceil ≤ Rat.floor ((z.ceil : Rat) + 1 / 1000) := by
    rw [Rat.le_floor_iff]
    linarith
  have h2 : Rat.floor ((z.ceil : Rat) + 1 / 1000) < z.ceil + 1 := by
    rw [Rat.floor_lt_iff]
    push_cast
    linarith
  omega

theorem side_spec (z : Rat) : z ≤ (side z : Rat) ∧ (side z : Rat) < z + 1 ∧ (0 < z → 0 < side z) := by
  rw [side_eq]
  refine ⟨Rat.le_ceil, ?_, ?_⟩
  · have : z.ceil - 1 < z.ceil := by omega
    rw [Rat.lt_ceil_iff] at this
    push_cast at this
    linarith
  · intro h
    rw [Rat.lt_ceil_iff]
    exact_mod_cast h

theorem side_le {z : Rat} {n : Int} (h : z ≤ n) : side z ≤ n := by
  rw [side_eq, Rat.ceil_le_iff]; exact h

theorem foldl_setItem {l : List (V × Pt)} : ∀ {d : List (V × Pt)}, ((d ++ l).map Prod.fst).Nodup → l.foldl setItem d = d ++ l := by
  induction l with
  | nil => intro d _; rw [List.append_nil]; rfl
  | cons e l ih =>
    intro d h
    have hne : e.1 ∉ d.map Prod.fst := by
      rw [List.map_append, List.map_cons, List.nodup_append] at h
      intro hm
      exact h.2.2 _ hm _ List.mem_cons_self rfl
    have : setItem d e = d ++ [e] := by unfold setItem; rw [if_neg hne]
    rw [List.foldl_cons, this, ih (by rw [List.append_assoc]; exact h), List.append_assoc]
    rfl

end Lay
end MM
