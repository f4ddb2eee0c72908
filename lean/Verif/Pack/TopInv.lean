import Verif.Pack.TotalInv

/-! What `rpack.pack` passes on to the packer. -/

namespace MM
namespace Pack

open Spec.Pack

theorem fill_bad : ∀ (sizes : List (Int × Int)) (s : RSet) (i : Nat), (∃ p ∈ sizes, p.1 ≤ 0 ∨ p.2 ≤ 0) →
    s.fill i sizes = .error .value := by
  intro sizes
  induction sizes with
  | nil => rintro s i ⟨p, hp, _⟩; cases hp
  | cons p sizes ih =>
    intro s i h
    obtain ⟨w, h'⟩ := p
    unfold RSet.fill
    split
    · rfl
    · rename_i hb
      refine ih _ _ ?_
      obtain ⟨p, hp, hbad⟩ := h
      rcases List.mem_cons.mp hp with rfl | hp
      · exact absurd hbad hb
      · exact ⟨p, hp, hbad⟩

theorem sides_le {a b : Int} (ha : 0 < a) (hb : 0 < b) : a ≤ a * b ∧ b ≤ a * b := by
  have h1 := Int.mul_le_mul_of_nonneg_left (a := 1) (b := b) (c := a) (by omega) (by omega)
  have h2 := Int.mul_le_mul_of_nonneg_right (a := 1) (b := a) (c := b) (by omega) (by omega)
  omega

/-- A limit as the packer reads it. -/
def readLimit (m : Option Int) : Int := if m.elim 0 id = 0 then -1 else m.elim 0 id

theorem pack_eq {q : Qsort} {debug : Bool} {sizes : List (Int × Int)} {mw mh : Option Int} :
    pack debug q sizes mw mh = corePack debug q sizes (readLimit mw) (readLimit mh) := rfl

theorem readLimit_pos {m : Int} (h : 0 < m) : readLimit (some m) = m := by
  show (if m = 0 then -1 else m) = m
  rw [if_neg (by omega)]

theorem readLimit_neg {m : Option Int} (h : ∀ k, m = some k → k ≤ 0) : readLimit m < 0 := by
  cases m with
  | none => simp [readLimit]
  | some k =>
    have := h k rfl
    show (if k = 0 then -1 else k) < 0
    split <;> omega

theorem corePack_neg {q : Qsort} {debug : Bool} {sizes : List (Int × Int)} {a b a' b' : Int} (ha : a = a' ∨ (a < 0 ∧ a' < 0))
    (hb : b = b' ∨ (b < 0 ∧ b' < 0)) : corePack debug q sizes a b = corePack debug q sizes a' b' := by
  have key : ∀ {a a' : Int}, (a = a' ∨ (a < 0 ∧ a' < 0)) → ∀ t l, limit a t l = limit a' t l := by
    intro a a' h t l
    rcases h with rfl | ⟨h1, h2⟩
    · rfl
    · rw [limit_none h1, limit_none h2]
  unfold corePack
  split
  · rfl
  · simp only [key ha, key hb]

theorem corePack_bad {q : Qsort} {debug : Bool} {sizes : List (Int × Int)} {a b : Int} (h : ∃ p ∈ sizes, p.1 ≤ 0 ∨ p.2 ≤ 0) :
    corePack debug q sizes a b = .error .value := by
  unfold corePack
  rw [if_neg (by
    rintro rfl
    obtain ⟨p, hp, _⟩ := h
    cases hp)]
  unfold RSet.make
  rw [fill_bad sizes _ 0 h]
  rfl

end Pack
end MM
