import Verif.Bus.Bits

/-! Model of the direct search for cliques of up to 4 nodes (include/busclique/small_cliques.hpp). -/

namespace MM
namespace Bus

/-- `emplace` into a `std::set`, which is kept in ascending order. -/
def setInsert (a : Nat) : List Nat → List Nat
  | [] => [a]
  | b :: l => if a < b then a :: b :: l else if a = b then b :: l else b :: setInsert a l

/-- The map `adj` of the nodes seen so far; a node without entry has an empty set, for no step depends on the difference. -/
abbrev AdjMap := Nat → List Nat

/-- `B.emplace(e.first); A.emplace(e.second);` (small_cliques.hpp 59-60, 96-97), where `A` and `B` may be the same set. -/
def addEdge (adj : AdjMap) (e : Nat × Nat) : AdjMap :=
  let adj1 : AdjMap := fun v => if v = e.2 then setInsert e.1 (adj v) else adj v
  fun v => if v = e.1 then setInsert e.2 (adj1 v) else adj1 v

/-- `find_generic_1` (small_cliques.hpp 21-27). -/
def findGeneric1 : List Nat → Option (List (List Nat))
  | [] => none
  | v :: _ => some [[v]]

/-- `find_generic_2` (small_cliques.hpp 30-37). -/
def findGeneric2 : List (Nat × Nat) → Option (List (List Nat))
  | [] => none
  | e :: _ => some [[e.1], [e.2]]

/-- The loop of `find_generic_3` (small_cliques.hpp 44-61). -/
def generic3Loop (adj : AdjMap) : List (Nat × Nat) → Option (List (List Nat))
  | [] => none
  | e :: es =>
    match (adj e.1).find? fun p => decide (p ∈ adj e.2) with
    | some p => some [[e.1], [e.2], [p]]
    | none => generic3Loop (addEdge adj e) es

/-- `find_generic_3` (small_cliques.hpp 40-63). -/
def findGeneric3 (edges : List (Nat × Nat)) : Option (List (List Nat)) := generic3Loop (fun _ => []) edges

/-- The two inner loops of `find_generic_4` (small_cliques.hpp 79-95): the first `p` and `q`. -/
def generic4Inner (adj : AdjMap) (A B : List Nat) : Option (Nat × Nat) :=
  (A.flatMap fun p => A.map fun q => (p, q)).find? fun (p, q) => decide (p ∈ B) && !(decide (p < q) || decide (q ∉ B)) && decide (p ∈ adj q)

/-- The loop of `find_generic_4` (small_cliques.hpp 70-98). -/
def generic4Loop (adj : AdjMap) : List (Nat × Nat) → Option (List (List Nat))
  | [] => none
  | e :: es =>
    match generic4Inner adj (adj e.1) (adj e.2) with
    | some (p, q) => some [[e.1], [e.2], [p], [q]]
    | none => generic4Loop (addEdge adj e) es

/-- `find_generic_4` (small_cliques.hpp 66-100). -/
def findGeneric4 (edges : List (Nat × Nat)) : Option (List (List Nat)) := generic4Loop (fun _ => []) edges

/-- The direct search for a number of nodes (find_clique.hpp 184-190). -/
def findGeneric (nodes : List Nat) (edges : List (Nat × Nat)) : Nat → Option (List (List Nat))
  | 1 => findGeneric1 nodes
  | 2 => findGeneric2 edges
  | 3 => findGeneric3 edges
  | 4 => findGeneric4 edges
  | _ => none

/-- `short_clique` (find_clique.hpp 215-226); `n` is `clique_number`. -/
def shortClique (n : Nat) (nodes : List Nat) (edges : List (Nat × Nat)) : List (List Nat) :=
  match (if 4 ≤ n then findGeneric4 edges else none) with
  | some emb => emb
  | none =>
    match (if 3 ≤ n then findGeneric3 edges else none) with
    | some emb => emb
    | none =>
      match findGeneric2 edges with
      | some emb => emb
      | none =>
        match findGeneric1 nodes with
        | some emb => emb
        | none => []

end Bus
end MM
