import Verif.Cache.RegularInv
import Mathlib.Data.List.Perm.Subperm

/-! There are functions that meet the contract of `networkx.bipartite.maximum_matching`: trying all choices. For examples only. -/

namespace MM
namespace Cache
open Spec

/-- The longer list. -/
def longer {α : Type} (a b : List α) : List α := if a.length < b.length then b else a

/-- The pairs of a largest matching. -/
def bestPairs {α β : Type} [DecidableEq α] [DecidableEq β] : List α → List (α × β) → List (α × β)
  | [], _ => []
  | v :: vs, E => ((E.filter fun e => e.1 = v).map fun e => e :: bestPairs vs (E.filter fun f => f.2 ≠ e.2)).foldl longer (bestPairs vs E)

theorem longer_fold {α : Type} (l : List (List α)) : ∀ a : List α, (l.foldl longer a = a ∨ l.foldl longer a ∈ l) ∧ a.length ≤ (l.foldl longer a).length ∧ ∀ b ∈ l, b.length ≤ (l.foldl longer a).length := by
  induction l with
  | nil => intro a; exact ⟨.inl rfl, Nat.le_refl _, by simp⟩
  | cons c l ih =>
    intro a
    rw [List.foldl_cons]
    obtain ⟨h1, h2, h3⟩ := ih (longer a c)
    have ha : a.length ≤ (longer a c).length := by unfold longer; split <;> omega
    have hc : c.length ≤ (longer a c).length := by unfold longer; split <;> omega
    refine ⟨?_, Nat.le_trans ha h2, fun b hb => ?_⟩
    · rcases h1 with h1 | h1
      · rw [h1]; unfold longer
        split
        · exact .inr (by simp)
        · exact .inl rfl
      · exact .inr (by simp [h1])
    · rcases List.mem_cons.mp hb with rfl | hb
      · exact Nat.le_trans hc h2
      · exact h3 b hb

section
variable {α β : Type} [DecidableEq α] [DecidableEq β]

theorem bestPairs_mem (top : List α) : ∀ (E : List (α × β)) e, e ∈ bestPairs top E → e ∈ E ∧ e.1 ∈ top := by
  induction top with
  | nil => intro E e h; cases h
  | cons v vs ih =>
    intro E e h
    rw [bestPairs] at h
    rcases (longer_fold _ _).1 with hf | hf
    · rw [hf] at h
      obtain ⟨a, b⟩ := ih E e h
      exact ⟨a, by simp [b]⟩
    · obtain ⟨x, hx, hxe⟩ := List.mem_map.mp hf
      rw [← hxe] at h
      rw [List.mem_filter] at hx
      rcases List.mem_cons.mp h with rfl | h
      · exact ⟨hx.1, by simpa using .inl (of_decide_eq_true hx.2)⟩
      · obtain ⟨a, b⟩ := ih _ e h
        exact ⟨(List.mem_filter.mp a).1, by simp [b]⟩

theorem bestPairs_apart (top : List α) : ∀ (E : List (α × β)), top.Nodup → ((bestPairs top E).map Prod.fst).Nodup ∧ ((bestPairs top E).map Prod.snd).Nodup := by
  induction top with
  | nil => intro E _; exact ⟨List.nodup_nil, List.nodup_nil⟩
  | cons v vs ih =>
    intro E hn
    rw [List.nodup_cons] at hn
    rw [bestPairs]
    rcases (longer_fold ((E.filter fun e => e.1 = v).map fun e => e :: bestPairs vs (E.filter fun f => f.2 ≠ e.2)) (bestPairs vs E)).1 with hf | hf
    · rw [hf]; exact ih E hn.2
    · obtain ⟨x, hx, hxe⟩ := List.mem_map.mp hf
      rw [← hxe]
      rw [List.mem_filter] at hx
      have hv : x.1 = v := of_decide_eq_true hx.2
      obtain ⟨a, b⟩ := ih (E.filter fun f => f.2 ≠ x.2) hn.2
      rw [List.map_cons, List.map_cons, List.nodup_cons, List.nodup_cons]
      refine ⟨⟨fun h => ?_, a⟩, fun h => ?_, b⟩
      · obtain ⟨y, hy, hye⟩ := List.mem_map.mp h
        exact hn.1 (by rw [← hv, ← hye]; exact (bestPairs_mem vs _ y hy).2)
      · obtain ⟨y, hy, hye⟩ := List.mem_map.mp h
        have := (List.mem_filter.mp (bestPairs_mem vs _ y hy).1).2
        simp [hye] at this

theorem bestPairs_most (top : List α) : ∀ (E : List (α × β)) (g : α → Option β), top.Nodup → Matching top E g → (top.filter fun v => (g v).isSome).length ≤ (bestPairs top E).length := by
  induction top with
  | nil => intro E g _ _; simp
  | cons v vs ih =>
    intro E g hn hg
    rw [List.nodup_cons] at hn
    rw [bestPairs]
    obtain ⟨_, h1, h2⟩ := longer_fold ((E.filter fun e => e.1 = v).map fun e => e :: bestPairs vs (E.filter fun f => f.2 ≠ e.2)) (bestPairs vs E)
    cases hv : g v with
    | none =>
      rw [List.filter_cons_of_neg (by simp [hv])]
      exact Nat.le_trans (ih E g hn.2 ⟨fun w hw => hg.edges w (by simp [hw]), fun w hw x hx => hg.apart w (by simp [hw]) x (by simp [hx])⟩) h1
    | some q =>
      rw [List.filter_cons_of_pos (by simp [hv]), List.length_cons]
      have hE := hg.edges v (by simp) q hv
      have := h2 _ (List.mem_map_of_mem (List.mem_filter.mpr ⟨hE, by simp⟩))
      rw [List.length_cons] at this
      refine Nat.le_trans (Nat.succ_le_succ (ih _ g hn.2 ⟨fun w hw x hx => ?_, fun w hw x hx => hg.apart w (by simp [hw]) x (by simp [hx])⟩)) this
      refine List.mem_filter.mpr ⟨hg.edges w (by simp [hw]) x hx, ?_⟩
      simp only [ne_eq, decide_not, Bool.not_eq_true', decide_eq_false_iff_not]
      rintro rfl
      exact hn.1 (hg.apart w (by simp [hw]) v (by simp) _ hx hv ▸ hw)

/-- Trying all choices meets the contract. -/
theorem bestPairs_maximum (top : List α) (E : List (α × β)) (hn : top.Nodup) : MaximumMatching top E (dget (bestPairs top E)) := by
  obtain ⟨a, b⟩ := bestPairs_apart top E hn
  refine ⟨⟨fun v _ q h => (bestPairs_mem top E _ (mem_of_dget h)).1, fun v _ w _ q h h' => ?_⟩, fun g hg => Nat.le_trans (bestPairs_most top E g hn hg) ?_⟩
  · exact congrArg Prod.fst (List.inj_on_of_nodup_map b (mem_of_dget h) (mem_of_dget h') rfl)
  · rw [← List.length_map (f := Prod.fst) (as := bestPairs top E)]
    refine (List.subperm_of_subset a fun v hv => ?_).length_le
    obtain ⟨e, he, rfl⟩ := List.mem_map.mp hv
    exact List.mem_filter.mpr ⟨(bestPairs_mem top E e he).2, dget_isSome.mpr hv⟩

end

end Cache
end MM
