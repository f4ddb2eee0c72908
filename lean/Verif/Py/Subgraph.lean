import Verif.Py.Labels
import Verif.Py.Multi
import Verif.Py.Feasible

/-! Model of `find_subgraph` (minorminer/subgraph.pyx). The Glasgow solver is a parameter. Restart policies, threads and
the other options only handed on to the solver are left out, as is the signal handler. -/

namespace MM
namespace Py

variable {α β : Type} [DecidableEq α] [DecidableEq β]

/-- What an `InputGraph` has been told (subgraph.pyx 492-508): its size, the vertex labels and the directed edges with
their labels. -/
structure SolverGraph where
  size : Nat
  names : List (Nat × String)
  links : List ((Nat × Nat) × String)

/-- `source` or `target` with its part of `node_labels` and `edge_labels`; `nodes` is `none` for an edge list without
`edges` attribute. -/
structure SubInput (α : Type) where
  edges : List (α × α)
  nodes : Option (List α)
  nodeLabel : Option (α → Option String)
  edgeLabel : Option (α × α → Option String)

/-- What `random.shuffle` does to the labels and to the edges. -/
structure Shuffle (α : Type) where
  labels : List α → List α
  edges : List (α × α) → List (α × α)

/-- `_labeldict.shuffle` (subgraph.pyx 57-60). -/
def LabelDict.shuffle (L : LabelDict α) (f : List α → List α) : LabelDict α :=
  { label := f L.label
    idx := fun a => if a ∈ f L.label then some ((f L.label).idxOf a) else L.idx a }

/-- `L[a], L[b]` for their effect. -/
def LabelDict.get2 (L : LabelDict α) (e : α × α) : LabelDict α := ((L.get e.1).1.get e.2).1

/-- The degrees networkx reports for the nodes (subgraph.pyx 468). -/
def SubInput.degree (X : SubInput α) (a : α) : Nat := Graph.degree ⟨[], X.edges⟩ a

/-- Sorting the nodes into labels and isolated nodes (subgraph.pyx 464-474). -/
def SubInput.sortNodes (X : SubInput α) : LabelDict α × List α :=
  match X.nodes with
  | none => (LabelDict.empty, [])
  | some ns => ns.foldl (fun s a => if X.degree a ≠ 0 then ((s.1.get a).1, s.2) else (s.1, s.2 ++ [a])) (LabelDict.empty, [])

/-- The labels before edges are read (subgraph.pyx 464-484). -/
def SubInput.labels (X : SubInput α) (sh : Option (Shuffle α)) : LabelDict α :=
  let L := X.sortNodes.1
  let L := if (sh.isSome || X.nodeLabel.isSome) && X.nodes.isNone then X.edges.foldl LabelDict.get2 L else L
  match sh with
  | none => L
  | some s => L.shuffle s.labels

/-- The edges in the order they are read (subgraph.pyx 481-485). -/
def SubInput.order (X : SubInput α) (sh : Option (Shuffle α)) : List (α × α) :=
  match sh with
  | none => X.edges
  | some s => s.edges X.edges

/-- The label of a directed edge (subgraph.pyx 503-506); edges added by `add_edge` have the empty label. -/
def SubInput.edgeName (X : SubInput α) (e : α × α) : String :=
  match X.edgeLabel with
  | none => ""
  | some f => (f e).elim "" id

/-- One edge (subgraph.pyx 498-506). `add_edge` is taken as two directed edges. -/
def SubInput.addEdge (X : SubInput α) (s : LabelDict α × List ((Nat × Nat) × String)) (e : α × α) :
    LabelDict α × List ((Nat × Nat) × String) :=
  let r := s.1.get e.1
  let q := r.1.get e.2
  (q.1, s.2 ++ [((r.2, q.2), X.edgeName e), ((q.2, r.2), X.edgeName (e.2, e.1))])

/-- The vertex labels set (subgraph.pyx 487-496). -/
def SubInput.names (X : SubInput α) (L : LabelDict α) : List (Nat × String) :=
  match X.nodeLabel with
  | none => []
  | some f => L.label.zipIdx.filterMap fun p => (f p.1).map fun l => (p.2, l)

structure SubRead (α : Type) where
  L : LabelDict α
  isolated : List α
  g : SolverGraph

/-- `_read_graph` (subgraph.pyx 461-509). -/
def SubInput.read (X : SubInput α) (sh : Option (Shuffle α)) : SubRead α :=
  let L := X.labels sh
  let r := (X.order sh).foldl X.addEdge (L, [])
  { L := r.1
    isolated := X.sortNodes.2
    g :=
      { size := r.1.label.length
        names := X.names L
        links := r.2 } }

/-- The values of `injectivity` (subgraph.pyx 399-406). -/
inductive Injectivity where
  | injective
  | locally
  | non
  deriving DecidableEq, Repr

/-- `dict[k] = v` for a dict kept as a list of pairs. -/
def dictSet (d : List (α × β)) (k : α) (v : β) : List (α × β) :=
  if (d.lookup k).isSome then d.map fun p => if p.1 = k then (k, v) else p else d ++ [(k, v)]

/-- `dict((source_labels.label(s), target_labels.label(t)) for s, t in result.mapping)` (subgraph.pyx 441). -/
def translate (LS : LabelDict α) (LT : LabelDict β) : List (Nat × Nat) → List (α × β) → Except PErr (List (α × β))
  | [], d => .ok d
  | (s, t) :: r, d =>
    match LS.label[s]?, LT.label[t]? with
    | some a, some b => translate LS LT r (dictSet d a b)
    | _, _ => .error .index

/-- `find_subgraph` from the reading of the graphs on (subgraph.pyx 432-459), without `as_embedding`. `setOrder` is the
order in which the set of unused target nodes is walked over, `solve` the Glasgow solver. Without isolated target nodes
and without injectivity the code takes the first key of a dict, here the first label: the two may differ after a shuffle. -/
def findSubgraph (S : SubInput α) (T : SubInput β) (shS : Option (Shuffle α)) (shT : Option (Shuffle β)) (inj : Injectivity)
    (setOrder : List β → List β) (solve : Injectivity → SolverGraph → SolverGraph → List (Nat × Nat)) :
    Except PErr (List (α × β)) :=
  let P := S.read shS
  let Q := T.read shT
  match (if P.L.label.length + P.isolated.length ≤ Q.L.label.length + Q.isolated.length ∨ inj ≠ .injective then
      translate P.L Q.L (solve inj P.g Q.g) [] else .ok [] : Except PErr (List (α × β))) with
  | .error e => .error e
  | .ok emb =>
    if P.isolated ≠ [] ∧ emb.length = P.L.label.length then
      if inj = .injective then
        let free := Q.isolated ++ setOrder (Q.L.label.filter fun t => t ∉ emb.map Prod.snd)
        if P.isolated.length ≤ free.length then
          .ok ((P.isolated.zip free).foldl (fun d p => dictSet d p.1 p.2) emb)
        else .ok emb
      else
        match Q.isolated, Q.L.label with
        | t :: _, _ => .ok (P.isolated.foldl (fun d s => dictSet d s t) emb)
        | [], t :: _ => .ok (P.isolated.foldl (fun d s => dictSet d s t) emb)
        | [], [] => .ok emb
    else .ok emb

/-- `as_embedding` (subgraph.pyx 456-457). -/
def asEmbedding (emb : List (α × β)) : List (α × List β) := emb.map fun p => (p.1, [p.2])

end Py
end MM
