import Verif.Core.Tape

/-! Model of include/find_embedding/pairing_queue.hpp. -/

namespace MM

/-- `distance_t` (util.hpp:46): a natural number, or `none` for `max_distance`.
Simplification: signed overflow is not modelled; sums involving `max_distance` stay
`max_distance`. -/
abbrev D := Option Nat

namespace D

/-- `<` on distances. -/
def lt : D → D → Bool
  | some a, some b => decide (a < b)
  | some _, none => true
  | none, _ => false

/-- `+` on distances. -/
def add : D → D → D
  | some a, some b => some (a + b)
  | _, _ => none

theorem lt_irrefl (a : D) : lt a a = false := by cases a <;> simp [lt]

theorem lt_trans {a b c : D} (h1 : lt a b = true) (h2 : lt b c = true) : lt a c = true := by
  cases a <;> cases b <;> cases c <;> simp_all [lt]; omega

theorem lt_asymm {a b : D} (h1 : lt a b = true) : lt b a = false := by
  cases a <;> cases b <;> simp_all [lt]; omega

theorem lt_total {a b : D} (h1 : lt a b = false) (h2 : lt b a = false) : a = b := by
  cases a <;> cases b <;> simp_all [lt]; omega

theorem lt_ne_none {a b : D} (h : lt a b = true) : a ≠ none := by
  cases a <;> simp_all [lt]

end D

/-- `priority_node` (pairing_queue.hpp:22-36). -/
structure Item where
  node : Nat
  dirt : Nat
  dist : D
  deriving DecidableEq, Repr

/-- `operator<` of `priority_node<_, min_heap_tag>` (pairing_queue.hpp:30-35):
`a` has lower priority than `b`. -/
def Item.less (a b : Item) : Bool :=
  D.lt b.dist a.dist || (decide (a.dist = b.dist) && decide (b.dirt < a.dirt))

/-- A `pairing_node` with its two pointers `desc` and `next` (pairing_queue.hpp:40-41);
`nil` is the null pointer. -/
inductive PNode where
  | nil
  | node (x : Item) (desc next : PNode)
  deriving Repr

namespace PNode

/-- A root without its `next` pointer. -/
abbrev Root := Item × PNode

/-- A root whose `next` is null. -/
def ofRoot (r : Root) : PNode := node r.1 r.2 nil

/-- `this->merge_roots_unsafe(other)` (pairing_queue.hpp:71-76) together with
`merge_roots_unchecked` (84-95): the loser becomes the first descendant of the winner.
The `next` of the result is fixed by the callers. -/
def link (this other : Root) : Root :=
  if Item.less other.1 this.1 then (this.1, node other.1 other.2 this.2)
  else (other.1, node this.1 this.2 other.2)

/-- The `while` loop of `merge_pairs` (pairing_queue.hpp:106-117). -/
def mergeLoop (r : Root) : PNode → Root
  | nil => r
  | node a ad nil => link (a, ad) r
  | node a ad (node b bd c) => mergeLoop (link (link (a, ad) (b, bd)) r) c

/-- `merge_pairs` (pairing_queue.hpp:94-119) on the descendant list of a popped root. -/
def mergePairs : PNode → PNode
  | nil => nil
  | node a ad nil => ofRoot (a, ad)
  | node a ad (node r rd c) => ofRoot (mergeLoop (link (a, ad) (r, rd)) c)

/-- All queued items below and after a node. -/
def elems : PNode → List Item
  | nil => []
  | node x d n => x :: (d.elems ++ n.elems)

end PNode

/-- `pairing_queue` (pairing_queue.hpp:122-161): `cap` is `size`, the number of nodes
in `mem`; nodes are never returned to `mem`. -/
structure PQ where
  cap : Nat
  count : Nat
  root : PNode
  deriving Repr

namespace PQ

/-- Constructor (pairing_queue.hpp:130). -/
def new (n : Nat) : PQ := ⟨n, 0, .nil⟩

/-- `reset` (pairing_queue.hpp:140-143). -/
def reset (q : PQ) : PQ := { q with root := .nil, count := 0 }

/-- `empty` (pairing_queue.hpp:145). -/
def isEmpty (q : PQ) : Bool := match q.root with
  | .nil => true
  | _ => false

/-- `emplace` (pairing_queue.hpp:147-152) with `merge_roots` (51-58). Writing past the
end of `mem` is undefined behaviour. -/
def emplace (q : PQ) (x : Item) : M PQ :=
  if q.count < q.cap then
    .ok { q with
      count := q.count + 1
      root := match q.root with
        | .nil => .node x .nil .nil
        | .node r d _ => PNode.ofRoot (PNode.link (x, .nil) (r, d)) }
  else .error .ub

/-- `top` (pairing_queue.hpp:154); dereferences null on an empty queue. -/
def top (q : PQ) : M Item := match q.root with
  | .nil => .error .ub
  | .node x _ _ => .ok x

/-- `pop` (pairing_queue.hpp:156-160). -/
def pop (q : PQ) : M PQ := match q.root with
  | .nil => .error .ub
  | .node _ d _ => .ok { q with root := PNode.mergePairs d }

/-- The items in the queue. -/
def items (q : PQ) : List Item := q.root.elems

end PQ
end MM
