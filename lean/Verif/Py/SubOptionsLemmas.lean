import Verif.Py.SubOptions
import Mathlib.Tactic.SplitIfs
import Mathlib.Tactic.Cases

/-! Lemmas about the options of `find_subgraph`. -/

namespace MM
namespace Py

open Spec (Restarts Ordering5 Mapping3 SubArgs SubDefaults SubParams OrStandard)

variable {F : Type}

theorem orderingOf_name (o : Ordering5) : orderingOf o.name = .ok o := by
  cases o <;> simp [orderingOf, Ordering5.name]

theorem orderingOf_error {s : String} (h : ¬ ∃ o : Ordering5, s = o.name) : orderingOf s = .error .runtime := by
  unfold orderingOf
  split_ifs with h1 h2 h3 h4 h5
  · exact absurd ⟨.none, h1⟩ h
  · exact absurd ⟨.biased, h2⟩ h
  · exact absurd ⟨.degree, h3⟩ h
  · exact absurd ⟨.antidegree, h4⟩ h
  · exact absurd ⟨.random, h5⟩ h
  · rfl

theorem mappingOf_name (m : Mapping3) : mappingOf m.name = .ok m := by
  cases m <;> simp [mappingOf, Mapping3.name]

theorem mappingOf_error {s : String} (h : ¬ ∃ m : Mapping3, s = m.name) : mappingOf s = .error .runtime := by
  unfold mappingOf
  split_ifs with h1 h2 h3
  · exact absurd ⟨.injective, h1⟩ h
  · exact absurd ⟨.locally, h2⟩ h
  · exact absurd ⟨.non, h3⟩ h
  · rfl

theorem given_orDefault {β : Type} (value : Option β) (default : β) : OrStandard value default (orDefault value default) := by
  cases value <;> simp [OrStandard, orDefault]

theorem given_all {a : SubArgs F} {l : List String} : (given a).all (fun n => decide (n ∈ l)) = true ↔
    (a.lubyConstant ≠ none → "luby_constant" ∈ l) ∧ (a.geometricConstant ≠ none → "geometric_constant" ∈ l) ∧
    (a.geometricMultiplier ≠ none → "geometric_multiplier" ∈ l) ∧ (a.restartInterval ≠ none → "restart_interval" ∈ l) ∧
    (a.restartMinimum ≠ none → "restart_minimum" ∈ l) := by
  unfold given
  cases a.lubyConstant <;> cases a.geometricConstant <;> cases a.geometricMultiplier <;> cases a.restartInterval <;> cases a.restartMinimum <;> simp

end Py
end MM
