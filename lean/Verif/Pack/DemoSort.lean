import Verif.Pack.TotalInv

/-! A stable sort that meets the contract of `qsort`, for examples. -/

namespace MM
namespace Pack

open Spec.Pack

/-- Puts an element in front of the first one that does not come before it. -/
def insertBy {α : Type} (cmp : α → α → Int) (r : α) : List α → List α
  | [] => [r]
  | a :: as => if cmp r a ≤ 0 then r :: a :: as else a :: insertBy cmp r as

/-- Stable insertion sort. -/
def demoSort {α : Type} (cmp : α → α → Int) (l : List α) : List α := l.foldr (insertBy cmp) []

theorem insertBy_perm {α : Type} (cmp : α → α → Int) (r : α) (l : List α) : (insertBy cmp r l).Perm (r :: l) := by
  induction l with
  | nil => exact List.Perm.refl _
  | cons a l ih =>
    unfold insertBy
    split
    · exact List.Perm.refl _
    · exact (ih.cons a).trans (List.Perm.swap r a l)

theorem demoSort_sorts {α : Type} : Sorts (demoSort (α := α)) := by
  intro cmp hc l
  induction l with
  | nil => exact ⟨List.Perm.refl _, List.Pairwise.nil⟩
  | cons a l ih =>
    have hp : (demoSort cmp (a :: l)).Perm (a :: l) := (insertBy_perm cmp a _).trans (ih.1.cons a)
    refine ⟨hp, ?_⟩
    show (insertBy cmp a (demoSort cmp l)).Pairwise fun a b => cmp a b ≤ 0
    have key : ∀ m : List α, (m.Pairwise fun a b => cmp a b ≤ 0) → (insertBy cmp a m).Pairwise fun a b => cmp a b ≤ 0 := by
      intro m
      induction m with
      | nil => intro _; exact List.pairwise_singleton _ _
      | cons b m ih =>
        intro h
        obtain ⟨h1, h2⟩ := List.pairwise_cons.mp h
        unfold insertBy
        split
        · rename_i hab
          refine List.pairwise_cons.mpr ⟨fun c hcm => ?_, h⟩
          rcases List.mem_cons.mp hcm with rfl | hcm
          · exact hab
          · exact hc.2 _ _ _ hab (h1 c hcm)
        · rename_i hab
          refine List.pairwise_cons.mpr ⟨fun c hcm => ?_, ih h2⟩
          rcases List.mem_cons.mp ((insertBy_perm cmp a m).mem_iff.mp hcm) with rfl | hcm
          · have := (hc.1 b c).mpr (by omega)
            omega
          · exact h1 c hcm
    exact key _ ih.2

end Pack
end MM
