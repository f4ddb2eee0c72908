import Mathlib.Data.List.Basic

/-! Python dictionaries as lists of items in the order of insertion. -/

namespace MM
namespace Cache

/-- A `dict`; keys are not repeated when it is built with the functions here. -/
abbrev Dict (κ β : Type) := List (κ × β)

variable {κ β : Type} [DecidableEq κ]

/-- `d.get(k)`. -/
def dget : Dict κ β → κ → Option β
  | [], _ => none
  | (a, b) :: d, k => if a = k then some b else dget d k

/-- `d[k] = v`. -/
def dset : Dict κ β → κ → β → Dict κ β
  | [], k, v => [(k, v)]
  | (a, b) :: d, k, v => if a = k then (k, v) :: d else (a, b) :: dset d k v

theorem dget_dset (d : Dict κ β) (k : κ) (v : β) (j : κ) : dget (dset d k v) j = if k = j then some v else dget d j := by
  induction d with
  | nil => simp only [dset, dget]
  | cons p d ih =>
    obtain ⟨a, b⟩ := p
    simp only [dset]
    by_cases h : a = k
    · rw [if_pos h]
      simp only [dget]
      subst h
      by_cases hj : a = j <;> simp [hj]
    · rw [if_neg h]
      simp only [dget, ih]
      by_cases hj : a = j
      · subst hj
        rw [if_pos rfl, if_pos rfl, if_neg (fun e => h e.symm)]
      · rw [if_neg hj, if_neg hj]

theorem mem_keys_dset {d : Dict κ β} {k : κ} {v : β} {j : κ} : j ∈ (dset d k v).map Prod.fst ↔ j = k ∨ j ∈ d.map Prod.fst := by
  induction d with
  | nil => simp [dset]
  | cons p d ih =>
    obtain ⟨a, b⟩ := p
    simp only [dset]
    split
    · rename_i h; subst h; simp
    · simp only [List.map_cons, List.mem_cons, ih]; tauto

theorem nodup_dset {d : Dict κ β} (h : (d.map Prod.fst).Nodup) (k : κ) (v : β) : ((dset d k v).map Prod.fst).Nodup := by
  induction d with
  | nil => simp [dset]
  | cons p d ih =>
    obtain ⟨a, b⟩ := p
    simp only [dset]
    rw [List.map_cons, List.nodup_cons] at h
    split
    · rename_i e; subst e
      simpa [List.nodup_cons] using h
    · rename_i e
      rw [List.map_cons, List.nodup_cons]
      refine ⟨fun hm => ?_, ih h.2⟩
      rcases mem_keys_dset.mp hm with h' | h'
      · exact e h'
      · exact h.1 h'

theorem dget_isSome {d : Dict κ β} {k : κ} : (dget d k).isSome ↔ k ∈ d.map Prod.fst := by
  induction d with
  | nil => simp [dget]
  | cons p d ih =>
    obtain ⟨a, b⟩ := p
    simp only [dget, List.map_cons, List.mem_cons]
    split
    · rename_i h; simp [h]
    · rename_i h
      rw [ih]
      constructor
      · exact .inr
      · rintro (rfl | h')
        · exact absurd rfl h
        · exact h'

theorem dget_of_mem {d : Dict κ β} (h : (d.map Prod.fst).Nodup) {k : κ} {v : β} (hm : (k, v) ∈ d) : dget d k = some v := by
  induction d with
  | nil => cases hm
  | cons p d ih =>
    obtain ⟨a, b⟩ := p
    rw [List.map_cons, List.nodup_cons] at h
    simp only [dget]
    rcases List.mem_cons.mp hm with e | hm
    · cases e; rw [if_pos rfl]
    · rw [if_neg, ih h.2 hm]
      rintro rfl
      exact h.1 (List.mem_map.mpr ⟨_, hm, rfl⟩)

theorem mem_of_dget {d : Dict κ β} {k : κ} {v : β} (h : dget d k = some v) : (k, v) ∈ d := by
  induction d with
  | nil => cases h
  | cons p d ih =>
    obtain ⟨a, b⟩ := p
    simp only [dget] at h
    split at h
    · rename_i e; cases h; subst e; exact List.mem_cons_self
    · exact List.mem_cons_of_mem _ (ih h)

end Cache
end MM
