import Verif.Py.Diag

/-! Model of `_get_connected_subgraphs` (minorminer/layout/placement.py 360-394). -/

namespace MM
namespace Py

variable {α : Type} [DecidableEq α]

/-- `X.union({u})` for a frozenset kept as a list without duplicates. -/
def union1 (X : List α) (u : α) : List α := if u ∈ X then X else X ++ [u]

/-- Equality of frozensets. -/
def sameSet (X Y : List α) : Bool := X.all (fun a => decide (a ∈ Y)) && Y.all (fun a => decide (a ∈ X))

/-- `set.add`. -/
def addSet (B : List (List α)) (X : List α) : List (List α) := if B.any (sameSet X) then B else B ++ [X]

/-- One round of the outer loop (placement.py 387-392). -/
def growSets (g : Graph α) (B : List (List α)) : List (List α) :=
  B.foldl (fun out X => X.foldl (fun out v => (g.nbrs v).foldl (fun out u => addSet out (union1 X u)) out) out) []

/-- The sets of round `i`: `connected_subgraphs[i]` while the rounds go on (placement.py 384-392). -/
def round (g : Graph α) : Nat → List (List α)
  | 0 => []
  | 1 => g.nodes.map fun v => [v]
  | i + 2 => growSets g (round g (i + 1))

/-- `_get_connected_subgraphs(G, k)[i]` (placement.py 384-394); keys never written read as the empty set. -/
def connectedSubgraphs (g : Graph α) (k i : Nat) : List (List α) :=
  if i = 1 ∨ (2 ≤ i ∧ i ≤ min k g.nodes.length) then round g i else []

end Py
end MM
