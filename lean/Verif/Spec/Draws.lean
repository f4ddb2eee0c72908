import Mathlib.Data.Fintype.Card
import Mathlib.Algebra.BigOperators.Group.Finset.Basic
import Mathlib.Data.Rat.Defs
import Mathlib.Data.Rat.Cast.Defs

/-! Random numbers: a finite set of equally likely cases, each with the results of all calls of `randint`. -/

namespace MM
namespace Spec

/-- `rnd ω i n` is the result of call number `i` of `randint(1, n)` in the case `ω`. Results are in range, and for any bounds up to `B` all combinations of results of the first
`k` calls are equally frequent: the calls are independent and uniform. -/
structure FairDraws (k B : Nat) (Ω : Type) [Fintype Ω] (rnd : Ω → Nat → Nat → Nat) : Prop where
  nonempty : Nonempty Ω
  range : ∀ ω i n, 1 ≤ n → 1 ≤ rnd ω i n ∧ rnd ω i n ≤ n
  even : ∀ bound v : Nat → Nat, (∀ i < k, 1 ≤ v i ∧ v i ≤ bound i ∧ bound i ≤ B) →
    (Finset.univ.filter fun ω => ∀ i < k, rnd ω i (bound i) = v i).card * ∏ i ∈ Finset.range k, bound i = Fintype.card Ω

/-- The share of the cases in which something happens. -/
def chance {Ω : Type} [Fintype Ω] (A : Ω → Prop) [DecidablePred A] : Rat := (Finset.univ.filter A).card / Fintype.card Ω

end Spec
end MM
