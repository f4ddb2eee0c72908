import Mathlib.Data.List.Basic

/-! Maximum matchings of bipartite graphs: the contract of `networkx.bipartite.maximum_matching`. -/

namespace MM
namespace Spec

/-- `f` gives some of `top` partners: joined to them by an edge, and no two of them the same. -/
structure Matching {α β : Type} (top : List α) (E : List (α × β)) (f : α → Option β) : Prop where
  edges : ∀ v ∈ top, ∀ q, f v = some q → (v, q) ∈ E
  apart : ∀ v ∈ top, ∀ w ∈ top, ∀ q, f v = some q → f w = some q → v = w

/-- A matching that no other one exceeds in size. -/
structure MaximumMatching {α β : Type} (top : List α) (E : List (α × β)) (f : α → Option β) : Prop extends Matching top E f where
  most : ∀ g, Matching top E g → (top.filter fun v => (g v).isSome).length ≤ (top.filter fun v => (f v).isSome).length

end Spec
end MM
