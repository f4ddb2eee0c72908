import Verif.Py.Multi
import Mathlib.Data.List.Sort
import Mathlib.Data.List.Dedup

/-! Model of `embedding_feasibility_filter` (minorminer/utils/feasibility.py 29-110). -/

namespace MM
namespace Py

variable {α β : Type} [DecidableEq α] [DecidableEq β]

/-- `G.degree[n]`: a self-loop counts twice. -/
def Graph.degree (g : Graph α) (v : α) : Nat :=
  (g.edges.map fun e => (if e.1 = v then 1 else 0) + (if e.2 = v then 1 else 0)).sum

/-- `np.sort([G.degree[n] for n in G.nodes()])` (feasibility.py 65-66). -/
def Graph.degrees (g : Graph α) : List Nat := (g.nodes.map g.degree).insertionSort (· ≤ ·)

/-- `ResidualCounts` after the subtraction (feasibility.py 79-80); degrees not in the counter count zero. -/
def residual (s t : List Nat) (k : Nat) : Int := (t.count k : Int) - s.count k

/-- One round of the loop over `kS` (feasibility.py 84-87). -/
def carryAt (r : Nat → Int) (j : Nat) : Nat → Int :=
  let r' : Nat → Int := if r j < 0 then (fun k => if k = j + 1 then r (j + 1) + r j else r k) else r
  fun k => if k = j then 0 else r' k

/-- `ResidualCounts` after the loop (feasibility.py 79-87). -/
def carried (s t : List Nat) : Nat → Int := [0, 1, 2].foldl carryAt (residual s t)

/-- The keys of the counter. (The loop adds 3 only if something is carried; it counts zero otherwise.) -/
def counterKeys (s t : List Nat) : List Nat := (t ++ s ++ [0, 1, 2, 3]).dedup

/-- `ceil(a / b)` for positive `b`. The program computes it in floating point. -/
def ceilDiv (a b : Int) : Int := -(-a / b)

/-- The test for minor embeddings (feasibility.py 89-107). `np.max` of nothing raises ValueError. -/
def minorTest (s t : List Nat) : Except PErr Bool :=
  let r := carried s t
  let keys := counterKeys s t
  if keys.all (fun k => 0 < r k) then .ok true
  else
    let aux := (keys.map r).sum
    if aux < 0 then .ok false
    else
      match (keys.filter fun k => 0 < r k).max? with
      | none => .error .value
      | some M => .ok (decide ((keys.map fun k => if r k < 0 then -(r k) * ceilDiv (k - M) (M - 2) else 0).sum ≤ aux))

/-- `embedding_feasibility_filter(S, T, one_to_one)` (feasibility.py 29-110). `same` says that `S` and `T` are one
object: graphs are compared by identity. -/
def feasible (same : Bool) (S : Graph α) (T : Graph β) (one : Bool) : Except PErr Bool :=
  if same then .ok true
  else if T.nodes.length < S.nodes.length ∨ T.edges.length < S.edges.length then .ok false
  else if S.nodes.length = 0 then .ok true
  else if T.nodes.length = 0 then .ok false
  else
    let s := S.degrees
    let t := T.degrees
    if ((t.drop (t.length - s.length)).zip s).any (fun p => decide (p.1 < p.2)) then
      match t.getLast? with
      | none => .error .index
      | some top => if one ∨ top ≤ 2 then .ok false else minorTest s t
    else .ok true

end Py
end MM
