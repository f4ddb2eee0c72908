import Verif.Py.Feasible

/-! Model of `lattice_size_lower_bound` (minorminer/utils/feasibility.py 113-221). -/

namespace MM
namespace Py

variable {α γ : Type} [DecidableEq α] [DecidableEq γ]

/-- A topology by name. -/
inductive Family where
  | chimera
  | pegasus
  | zephyr
  | other
  deriving DecidableEq, Repr

/-- What is looked up on a target graph: the answer of the filter, `T.graph.get("family")` and `T.graph["tile"]`. -/
structure TargetInfo where
  answer : Bool
  family : Option Family
  tile : Option Nat

structure BoundArgs (α γ : Type) where
  S : Graph α
  target : Option TargetInfo
  topology : Option Family
  t : Option Nat
  one : Bool
  /-- the colours of `greedy_color(S, strategy="connected_sequential_bfs")` -/
  colour : α → Nat
  /-- the graph generators of dwave-graphs, by family, tile parameter and size -/
  gen : Family → Nat → Nat → Graph γ

/-- `max_degrees` (feasibility.py 171). -/
def maxDegree (t : Nat) : Family → Option Nat
  | .chimera => some (2 + 2 * t)
  | .pegasus => some 15
  | .zephyr => some (4 + 4 * t)
  | .other => none

/-- The first size tried (feasibility.py 192, 200, 208) for `N` nodes: the formulas are rounded up, so they give the
least whole number not below. The program computes with floating point numbers. -/
def firstSize (t N : Nat) (fam : Family) : Option Nat :=
  (List.range (N + 2)).find? fun k =>
    match fam with
    | .chimera => decide (N ≤ 4 * t * k ^ 2)
    | .pegasus => decide (8 ≤ 12 * k ∧ 6 * N + 16 ≤ (12 * k - 8) ^ 2)
    | .zephyr => decide (2 * N + t ≤ t * (4 * k + 1) ^ 2)
    | .other => true

/-- The loop over sizes (feasibility.py 216-220), for so many rounds; `none` if it has not ended. -/
def sizeLoop (A : BoundArgs α γ) (fam : Family) (t : Nat) : Nat → Nat → Option (Except PErr Nat)
  | 0, _ => none
  | fuel + 1, k =>
    match feasible false A.S (A.gen fam t k) A.one with
    | .error x => some (.error x)
    | .ok true => some (.ok k)
    | .ok false => sizeLoop A fam t fuel (k + 1)

/-- The arguments settled (feasibility.py 154-175): the topology and the tile parameter, or nothing for `None`. -/
def settle (A : BoundArgs α γ) : Except PErr (Option (Option Family × Nat)) :=
  match A.target with
  | some T =>
    if T.answer = false then .ok none
    else
      match A.topology with
      | none =>
        match A.t, T.tile with
        | some t, _ => .ok (some (T.family, t))
        | none, some t => .ok (some (T.family, t))
        | none, none => .error .key
      | some fam =>
        if T.family = some fam then
          match A.t, T.tile with
          | some t, _ => .ok (some (some fam, t))
          | none, some t => .ok (some (some fam, t))
          | none, none => .error .key
        else .error .value
  | none =>
    match A.topology with
    | none => .error .value
    | some fam =>
      let t := A.t.elim 4 id
      match (A.S.nodes.map A.S.degree).max? with
      | none => .error .value
      | some d =>
        match maxDegree t fam with
        | none => .error .key
        | some top => if top < d then .ok none else .ok (some (some fam, t))

/-- `lattice_size_lower_bound` (feasibility.py 113-221) with a bound on the rounds of its loop; `none` if it has not
ended then. -/
def latticeBound (A : BoundArgs α γ) (fuel : Nat) : Option (Except PErr (Option Nat)) :=
  match settle A with
  | .error x => some (.error x)
  | .ok none => some (.ok none)
  | .ok (some (none, _)) => some (.error .value)
  | .ok (some (some fam, t)) =>
    if fam = .other then some (.error .value)
    else if fam = .chimera ∧ A.S.nodes.any (fun v => decide (2 < A.colour v)) then some (.ok none)
    else if fam ≠ .pegasus ∧ t = 0 then some (.error .zeroDiv)
    else
      match firstSize t A.S.nodes.length fam with
      | none => some (.error .index)
      | some k =>
        match sizeLoop A fam t fuel k with
        | none => none
        | some (.error x) => some (.error x)
        | some (.ok k) => some (.ok (some k))

/-- `chimera_graph(m, n, t)` with coordinates as labels (dwave-graphs, external): `(i, j, u, k)` with row `i`, column
`j`, side `u` and index `k`; side 0 couples along columns and side 1 along rows. -/
def chimeraGraph (m n t : Nat) : Graph (Nat × Nat × Nat × Nat) where
  nodes := (List.range m).flatMap fun i => (List.range n).flatMap fun j => (List.range 2).flatMap fun u => (List.range t).map fun k => (i, j, u, k)
  edges :=
    ((List.range m).flatMap fun i => (List.range n).flatMap fun j => (List.range t).flatMap fun k => (List.range t).map fun l => ((i, j, 0, k), (i, j, 1, l))) ++
    ((List.range (m - 1)).flatMap fun i => (List.range n).flatMap fun j => (List.range t).map fun k => ((i, j, 0, k), (i + 1, j, 0, k))) ++
    ((List.range m).flatMap fun i => (List.range (n - 1)).flatMap fun j => (List.range t).map fun k => ((i, j, 1, k), (i, j + 1, 1, k)))

end Py
end MM
