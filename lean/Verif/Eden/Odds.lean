import Verif.Eden.Tower
import Mathlib.Tactic.NormNum

/-! Chances of the native cliques of three cells in a column. -/

namespace MM
namespace Eden

open Spec (FairDraws chance chance_congr chance_or)

/-- The bounds of the calls. -/
def bnd : Nat → Nat
  | 0 => 1 | 1 => 2 | 2 => 1 | 3 => 1 | 4 => 2 | 5 => 3 | 6 => 4 | 7 => 2 | 8 => 1 | 9 => 2 | 10 => 3 | 11 => 4 | 12 => 3 | 13 => 1 | 14 => 2 | _ => 4

/-- Some calls hit, some miss. -/
def Falls (d : Nat → Nat → Nat) (l : List (Nat × Bool)) : Prop := ∀ p ∈ l, (d p.1 (bnd p.1) ≤ 1 ↔ p.2 = true)

instance (d : Nat → Nat → Nat) (l : List (Nat × Bool)) : Decidable (Falls d l) := by unfold Falls; infer_instance

/-- The results that fit. -/
def fits (l : List (Nat × Bool)) (i : Nat) : Finset Nat := (Finset.Icc 1 (bnd i)).filter fun v => ∀ p ∈ l, p.1 = i → (v ≤ 1 ↔ p.2 = true)

theorem falls_chance {Ω : Type} [Fintype Ω] {rnd : Ω → Nat → Nat → Nat} (h : FairDraws 16 4 Ω rnd) (l : List (Nat × Bool)) (hl : ∀ p ∈ l, p.1 < 16) :
    chance (fun ω => Falls (rnd ω) l) = ∏ i ∈ Finset.range 16, ((fits l i).card / bnd i : Rat) := by
  have hb : ∀ i < 16, 1 ≤ bnd i ∧ bnd i ≤ 4 := by decide
  rw [← h.chance_box (A := fits l) hb fun i _ => Finset.filter_subset _ _]
  refine chance_congr fun ω => ⟨fun hh i hi => ?_, fun hh p hp => ?_⟩
  · unfold fits
    rw [Finset.mem_filter, Finset.mem_Icc]
    refine ⟨h.range ω i _ (hb i hi).1, fun p hp he => ?_⟩
    subst he
    exact hh p hp
  · have := hh p.1 (hl p hp)
    unfold fits at this
    exact (Finset.mem_filter.mp this).2 p hp rfl

theorem middle_iff (d : Nat → Nat → Nat) : outcome d = 1 ↔
    Falls d [(15, false), (12, true), (11, false), (10, true)] ∨ Falls d [(15, false), (12, true), (11, false), (10, false), (9, false)] ∨
      Falls d [(15, false), (12, false), (7, true), (6, true)] ∨ Falls d [(15, false), (12, false), (7, true), (6, false), (5, false), (4, true)] := by
  simp only [outcome, Falls, List.forall_mem_cons, List.not_mem_nil, false_imp_iff, implies_true, and_true, bnd, iff_true, Bool.false_eq_true, iff_false]
  by_cases h15 : d 15 4 ≤ 1 <;> by_cases h12 : d 12 3 ≤ 1 <;> by_cases h11 : d 11 4 ≤ 1 <;> by_cases h10 : d 10 3 ≤ 1 <;> by_cases h9 : d 9 2 ≤ 1 <;> by_cases h7 : d 7 2 ≤ 1 <;>
    by_cases h6 : d 6 4 ≤ 1 <;> by_cases h5 : d 5 3 ≤ 1 <;> by_cases h4 : d 4 2 ≤ 1 <;> simp only [h15, h12, h11, h10, h9, h7, h6, h5, h4, if_true, if_false] <;> decide

theorem lowest_iff (d : Nat → Nat → Nat) : outcome d = 0 ↔
    Falls d [(15, false), (12, false), (7, true), (6, false), (5, true)] ∨ Falls d [(15, false), (12, false), (7, true), (6, false), (5, false), (4, false)] ∨
      Falls d [(15, false), (12, false), (7, false)] := by
  simp only [outcome, Falls, List.forall_mem_cons, List.not_mem_nil, false_imp_iff, implies_true, and_true, bnd, iff_true, Bool.false_eq_true, iff_false]
  by_cases h15 : d 15 4 ≤ 1 <;> by_cases h12 : d 12 3 ≤ 1 <;> by_cases h11 : d 11 4 ≤ 1 <;> by_cases h10 : d 10 3 ≤ 1 <;> by_cases h9 : d 9 2 ≤ 1 <;> by_cases h7 : d 7 2 ≤ 1 <;>
    by_cases h6 : d 6 4 ≤ 1 <;> by_cases h5 : d 5 3 ≤ 1 <;> by_cases h4 : d 4 2 ≤ 1 <;> simp only [h15, h12, h11, h10, h9, h7, h6, h5, h4, if_true, if_false] <;> decide

/-- Two lists that ask for opposite results exclude each other. -/
theorem falls_apart {d : Nat → Nat → Nat} {l l' : List (Nat × Bool)} (i : Nat) (h : (i, true) ∈ l ∧ (i, false) ∈ l' ∨ (i, false) ∈ l ∧ (i, true) ∈ l') : Falls d l → ¬ Falls d l' := by
  intro h1 h2
  rcases h with ⟨a, b⟩ | ⟨a, b⟩
  · exact absurd ((h2 _ b).mp ((h1 _ a).mpr rfl)) (by simp)
  · exact absurd ((h1 _ a).mp ((h2 _ b).mpr rfl)) (by simp)

theorem middle_chance {Ω : Type} [Fintype Ω] {rnd : Ω → Nat → Nat → Nat} (h : FairDraws 16 4 Ω rnd) : chance (fun ω => outcome (rnd ω) = 1) = 1 / 4 := by
  rw [chance_congr fun ω => middle_iff (rnd ω), chance_or, chance_or, chance_or]
  · rw [falls_chance h _ (by decide), falls_chance h _ (by decide), falls_chance h _ (by decide), falls_chance h _ (by decide)]
    decide +kernel
  · exact fun ω => falls_apart 6 (by decide)
  · rintro ω h1 (h2 | h2)
    · exact falls_apart 12 (by decide) h1 h2
    · exact falls_apart 12 (by decide) h1 h2
  · rintro ω h1 (h2 | h2 | h2)
    · exact falls_apart 10 (by decide) h1 h2
    · exact falls_apart 12 (by decide) h1 h2
    · exact falls_apart 12 (by decide) h1 h2

theorem lowest_chance {Ω : Type} [Fintype Ω] {rnd : Ω → Nat → Nat → Nat} (h : FairDraws 16 4 Ω rnd) : chance (fun ω => outcome (rnd ω) = 0) = 3 / 8 := by
  rw [chance_congr fun ω => lowest_iff (rnd ω), chance_or, chance_or]
  · rw [falls_chance h _ (by decide), falls_chance h _ (by decide), falls_chance h _ (by decide)]
    decide +kernel
  · exact fun ω => falls_apart 7 (by decide)
  · rintro ω h1 (h2 | h2)
    · exact falls_apart 5 (by decide) h1 h2
    · exact falls_apart 7 (by decide) h1 h2

end Eden
end MM
