import Verif.Py.Graph

/-! Model of `minorminer/utils/diagnostic.py`. -/

namespace MM
namespace Py

open Relation

/-- The errors of `minorminer/utils/exceptions.py` 22-90 with their arguments, in the order in which
`diagnose_embedding` gives them. -/
inductive Err (α β : Type) where
  | missingChain (x : α)
  | invalidNode (x : α) (q : β)
  | disconnected (x : α)
  | overlap (q : β) (x y : α)
  | missingEdge (x y : α)
  deriving DecidableEq, Repr

/-- The class of an error, without its arguments. -/
inductive ErrClass where
  | missingChain | invalidNode | disconnected | overlap | missingEdge
  deriving DecidableEq, Repr

def Err.cls {α β : Type} : Err α β → ErrClass
  | .missingChain _ => .missingChain
  | .invalidNode _ _ => .invalidNode
  | .disconnected _ => .disconnected
  | .overlap _ _ _ => .overlap
  | .missingEdge _ _ => .missingEdge

variable {α β : Type} [DecidableEq α] [DecidableEq β]

/-- The local variables of `diagnose_embedding` (diagnostic.py 87-89) and the errors so far. `labels q`
is the set stored under `q`; the empty list stands for a missing key. -/
structure DState (α β : Type) where
  labels : β → List α
  embedded : List α
  overlaps : List β
  out : List (Err α β)

/-- Body of the loop over a chain (diagnostic.py 101-107); the flag is `all_present`. -/
def visitQubit (tgt : Graph β) (x : α) (s : DState α β × Bool) (q : β) : DState α β × Bool :=
  if q ∉ tgt.nodes then ({ s.1 with out := s.1.out ++ [.invalidNode x q] }, false)
  else if s.1.labels q = [] then
    ({ s.1 with labels := fun p => if p = q then [x] else s.1.labels p }, s.2)
  else if x ∉ s.1.labels q then
    ({ s.1 with
        labels := fun p => if p = q then s.1.labels q ++ [x] else s.1.labels p
        overlaps := if q ∈ s.1.overlaps then s.1.overlaps else s.1.overlaps ++ [q] }, s.2)
  else s

/-- Body of the loop over the source nodes (diagnostic.py 90-112). -/
def visitNode (tgt : Graph β) (emb : α → Option (List β)) (s : DState α β) (x : α) : DState α β :=
  match emb x with
  | none => { s with out := s.out ++ [.missingChain x] }
  | some c =>
    if c = [] then { s with out := s.out ++ [.missingChain x] }
    else
      let r := c.foldl (visitQubit tgt x) (s, true)
      if r.2 then
        let t := { r.1 with embedded := r.1.embedded ++ [x] }
        if (tgt.sub c).isConnected then t else { t with out := t.out ++ [.disconnected x] }
      else r.1

/-- The errors for one overfull node (diagnostic.py 114-118). `ord` is the order in which Python lists
a set, unspecified. -/
def overlapErrs (ord : List α → List α) (labels : β → List α) (q : β) : List (Err α β) :=
  match ord (labels q) with
  | [] => []
  | root :: rest => rest.map (Err.overlap q root)

/-- `yielded.has_edge(x, y)` (diagnostic.py 120-122, 127). -/
def yielded (tgt : Graph β) (labels : β → List α) (x y : α) : Bool :=
  (tgt.edges.filter fun e => labels e.1 ≠ [] ∧ labels e.2 ≠ []).any fun e =>
    decide ((x ∈ labels e.1 ∧ y ∈ labels e.2) ∨ (y ∈ labels e.1 ∧ x ∈ labels e.2))

/-- `diagnose_embedding` (diagnostic.py 25-128) as the list of what the generator yields. `ordQ` and
`ordX` are the unspecified orders of Python sets. -/
def diagnose (ordQ : List β → List β) (ordX : List α → List α)
    (emb : α → Option (List β)) (src : Graph α) (tgt : Graph β) : List (Err α β) :=
  let s := src.nodes.foldl (visitNode tgt emb) { labels := fun _ => [], embedded := [], overlaps := [], out := [] }
  s.out ++ (ordQ s.overlaps).flatMap (overlapErrs ordX s.labels) ++
    (src.edges.filter fun e =>
      decide (e.1 ≠ e.2 ∧ e.1 ∈ s.embedded ∧ e.2 ∈ s.embedded) && !yielded tgt s.labels e.1 e.2).map
      fun e => Err.missingEdge e.1 e.2

/-- `is_valid_embedding` (diagnostic.py 131-149). -/
def isValid (ordQ : List β → List β) (ordX : List α → List α)
    (emb : α → Option (List β)) (src : Graph α) (tgt : Graph β) : Bool :=
  match diagnose ordQ ordX emb src tgt with
  | _ :: _ => false
  | [] => true

/-- `verify_embedding` (diagnostic.py 152-185): the error raised, or `none` if it returns `True`. -/
def verify (ordQ : List β → List β) (ordX : List α → List α) (ignored : List ErrClass)
    (emb : α → Option (List β)) (src : Graph α) (tgt : Graph β) : Option (Err α β) :=
  (diagnose ordQ ordX emb src tgt).find? fun e => decide (e.cls ∉ ignored)

end Py

/-! ### Specification -/

namespace Spec
namespace Py

open MM.Py Relation

variable {α β : Type}

/-- Any two nodes of `c` are joined by a path inside `c`. -/
def Linked (g : Graph β) (c : List β) : Prop :=
  ∀ a ∈ c, ∀ b ∈ c, ReflTransGen (fun x y => y ∈ c ∧ g.Adj x y) a b

/-- Some edge joins `c` with `d`. -/
def Joined (g : Graph β) (c d : List β) : Prop := ∃ p ∈ c, ∃ q ∈ d, g.Adj p q

/-- `emb` maps every node of `src` to a chain and the chains form a minor embedding of `src` in `tgt`. -/
structure MinorEmbedding (src : Graph α) (tgt : Graph β) (emb : α → Option (List β)) : Prop where
  chain : ∀ x ∈ src.nodes, ∃ c, emb x = some c ∧ c ≠ []
  nodes : ∀ x ∈ src.nodes, ∀ c, emb x = some c → ∀ q ∈ c, q ∈ tgt.nodes
  linked : ∀ x ∈ src.nodes, ∀ c, emb x = some c → Linked tgt c
  disjoint : ∀ x ∈ src.nodes, ∀ y ∈ src.nodes, x ≠ y → ∀ c d, emb x = some c → emb y = some d → ∀ q ∈ c, q ∉ d
  edges : ∀ x y, src.Adj x y → x ≠ y → ∀ c d, emb x = some c → emb y = some d → Joined tgt c d

/-- `x` has a chain, not empty and made of target nodes only. -/
def Placed (tgt : Graph β) (emb : α → Option (List β)) (x : α) (c : List β) : Prop :=
  emb x = some c ∧ c ≠ [] ∧ ∀ q ∈ c, q ∈ tgt.nodes

/-- What an error says is the case. -/
def Defect (src : Graph α) (tgt : Graph β) (emb : α → Option (List β)) : Err α β → Prop
  | .missingChain x => x ∈ src.nodes ∧ (emb x = none ∨ emb x = some [])
  | .invalidNode x q => x ∈ src.nodes ∧ q ∉ tgt.nodes ∧ ∃ c, emb x = some c ∧ q ∈ c
  | .disconnected x => x ∈ src.nodes ∧ ∃ c, Placed tgt emb x c ∧ ¬ Linked tgt c
  | .overlap q x y => x ∈ src.nodes ∧ y ∈ src.nodes ∧ x ≠ y ∧ q ∈ tgt.nodes ∧ ∃ c d, emb x = some c ∧ emb y = some d ∧ q ∈ c ∧ q ∈ d
  | .missingEdge x y => (x, y) ∈ src.edges ∧ x ≠ y ∧ ∃ c d, Placed tgt emb x c ∧ Placed tgt emb y d ∧ ¬ Joined tgt c d

end Py
end Spec
end MM
