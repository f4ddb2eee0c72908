import Verif.Graph.Input

/-! Model of `components` of include/find_embedding/graph.hpp. -/

namespace MM

namespace UF

/-- `__init_find` (graph.hpp:307-312), with path compression. `parent` has `n` entries. -/
def find (n : Nat) : Nat → (Nat → Nat) → Nat → M ((Nat → Nat) × Nat)
  | 0, _, _ => .error .diverge
  | fuel+1, par, x =>
    if x < n then
      if par x ≠ x then do
        let (par, r) ← find n fuel par (par x)
        .ok (upd par x r, r)
      else .ok (par, x)
    else .error .ub

/-- `__init_union` (graph.hpp:314-330): state is `(parent, rank)`. -/
def union (n : Nat) (s : (Nat → Nat) × (Nat → Nat)) (e : Nat × Nat) :
    M ((Nat → Nat) × (Nat → Nat)) := do
  let (par, x) ← find n n s.1 e.1
  let (par, y) ← find n n par e.2
  let rank := s.2
  if x = y then .ok (par, rank)
  else if rank x < rank y then .ok (upd par x y, rank)
  else if rank y < rank x then .ok (upd par y x, rank)
  else .ok (upd par y x, upd rank x (rank x + 1))

end UF

/-- `components` (graph.hpp:332-336). -/
structure Comps where
  comp : List (List Nat)
  nres : List Nat
  index : Nat → Nat
  label : Nat → Nat
  graphs : Nat → IGraph

namespace Comps

/-- The two-pointer loop moving reserved nodes to the end (graph.hpp:235-238): the first
list is the part between `front` and `back`, the second the part after `back`. -/
def part (res : Nat → Bool) : Nat → List Nat → List Nat → List Nat × List Nat
  | 0, m, t => (m, t)
  | _+1, [], t => ([], t)
  | f+1, x :: m, t =>
    if res x then
      match m.getLast? with
      | none => ([], x :: t)
      | some y => part res f (y :: m.dropLast) (x :: t)
    else
      let (a, b) := part res f m t
      (x :: a, b)

/-- Grouping the nodes by their representative (graph.hpp:221). -/
def group (n : Nat) (par : Nat → Nat) : M (Nat → List Nat) := do
  let (_, c) ← (List.range n).reverse.foldlM (init := (par, (fun _ => [] : Nat → List Nat)))
    fun (par, c) x => do
      let (par, r) ← UF.find n n par x
      .ok (par, upd c r (c r ++ [x]))
  .ok c

/-- Positions in a component and number of the component (graph.hpp:239-243); the state is
`(index, label)`. -/
def number (c : Nat) (l : List Nat) (s : (Nat → Nat) × (Nat → Nat)) : (Nat → Nat) × (Nat → Nat) :=
  l.zipIdx.reverse.foldl (init := s) fun s (x, j) => (upd s.1 x c, upd s.2 x j)

/-- The constructor (graph.hpp:204-256). `sort` stands for `std::sort` with the order by
decreasing size; nodes of components of size 0 do not occur. -/
def build (sort : List (List Nat) → List (List Nat)) (g : IGraph) (res : Nat → Bool) : M Comps := do
  let (par, rank) ← g.edges.reverse.foldlM (UF.union g.n) (id, (fun _ => 0 : Nat → Nat))
  let c ← group g.n par
  let sorted := sort ((List.range g.n).map c)
  let parts := (sorted.takeWhile (fun l => !l.isEmpty)).map (fun l => part res l.length l [])
  let comp := parts.map (fun p => p.1 ++ p.2)
  let (index, label) := comp.zipIdx.foldl (init := (par, rank)) fun s (l, c) => number c l s
  let graphs ← g.edges.reverse.foldlM (init := (fun _ => IGraph.empty : Nat → IGraph))
    fun gs (a, b) =>
      if index a < comp.length then
        .ok (upd gs (index a) ((gs (index a)).pushBack (label a) (label b)))
      else .error .ub
  .ok ⟨comp, parts.map (fun p => p.2.length), index, label, graphs⟩

/-- `size(c)` (graph.hpp:273). -/
def size (C : Comps) (c : Nat) : Nat := (C.graphs c).n

/-- `component_neighbors(c)` (graph.hpp:279-281): reserved nodes are sources. `r` is
`num_reserved(c)`. -/
def neighbors (C : Comps) (c r : Nat) : M (Nat → List Nat) :=
  (C.graphs c).getNeighbors (fun x => decide (((C.size c : Int) - r) ≤ x)) (fun _ => false) id

/-- `into_component` (graph.hpp:284-295); `n` is the length of `index`. The answer `none`
is `false`. -/
def into (C : Comps) (n c : Nat) (l : List Int) : Option (List Nat) :=
  l.foldlM (init := []) fun out x =>
    if (0 : Int) ≤ x ∧ x < (n : Int) then
      if C.index x.toNat = c then some (out ++ [C.label x.toNat]) else none
    else none

/-- `from_component` (graph.hpp:298-304). -/
def from_ (C : Comps) (c : Nat) (l : List Nat) : M (List Nat) :=
  match C.comp[c]? with
  | none => .error .ub
  | some comp => l.foldlM (init := []) fun out x =>
      match comp[x]? with
      | none => .error .ub
      | some y => .ok (out ++ [y])

end Comps

/-- What `std::sort` with `a.size() > b.size()` guarantees (graph.hpp:223-224). -/
structure SortOK (sort : List (List Nat) → List (List Nat)) : Prop where
  perm : ∀ l, (sort l).Perm l
  desc : ∀ l, (sort l).Pairwise (fun a b => b.length ≤ a.length)

end MM
