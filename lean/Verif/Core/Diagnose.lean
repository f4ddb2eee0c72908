import Verif.Core.Emb

/-! Model of the self-check of debugging builds (include/find_embedding/embedding.hpp:372-552). The
check of a single chain, `Chain.runDiagnostic`, is in `Verif.Core.Chain`. -/

namespace MM
namespace Diag

/-- A loop that runs a check for every item of a list and remembers whether one of them reported an
error (`err = 1` throughout embedding.hpp:381-552; the loops never stop early). -/
def anyErr (l : List Nat) (f : Nat → M Bool) : M Bool :=
  match l with
  | [] => .ok false
  | x :: l => do
    let b ← f x
    let r ← anyErr l f
    .ok (b || r)

/-- The parent of a qubit of a free chain is the qubit itself or a neighbour
(embedding.hpp:387-400). Reading the neighbours of a qubit that does not exist is undefined
behaviour. -/
def badParent (P : Prob) (c : Chain) (q : Nat) : M Bool :=
  match c.data q with
  | none => .error .ub
  | some e =>
    if e.parent = q then .ok false
    else if P.Q ≤ q ∨ P.Q ≤ e.parent then .error .ub
    else .ok (!((P.qn q).contains e.parent || (P.qn e.parent).contains q))

/-- The loop that follows the parents (embedding.hpp:408-411). The first argument is `n`; the result
says whether `n` became negative (line 412). -/
def climb (c : Chain) : Nat → Nat → Nat → M Bool
  | 0, last, z => .ok (z != last)
  | n+1, last, z =>
    if z = last then .ok false
    else match c.data z with
      | none => .error .ub
      | some e => climb c n z e.parent

/-- Parents lead around in a cycle, from a qubit of a chain (embedding.hpp:405-416). -/
def badCycle (P : Prob) (c : Chain) (q : Nat) : M Bool :=
  match c.data q with
  | none => .error .ub
  | some e => climb c (P.nq + 1) q e.parent

/-- The loop over the qubits of a free chain (embedding.hpp:387-402). -/
def badParents (P : Prob) (E : Emb) (v : Nat) : M Bool :=
  if P.fixed v then .ok false else anyErr ((E.chains v).keys P.Q) (badParent P (E.chains v))

/-- The checks of one chain (embedding.hpp:386-421). -/
def badChain (P : Prob) (E : Emb) (v : Nat) : M Bool := do
  let a ← badParents P E v
  if (E.chains v).runDiagnostic P.N P.Q = 0 then do
    let b ← anyErr ((E.chains v).keys P.Q) (badCycle P (E.chains v))
    .ok (a || b)
  else .ok true

/-- Number of empty chains (embedding.hpp:422). -/
def zeros (P : Prob) (E : Emb) : Nat := cnt (fun v => E.chainsize P v == 0) P.N

/-- The checks of the links between `v`, whose chain is not empty, and its neighbour `u`
(embedding.hpp:435-489). `good_links` is never read. -/
def badLink (P : Prob) (init : Bool) (E : Emb) (v u : Nat) : M Bool :=
  if P.N ≤ u then .error .ub
  else
    let lu := (E.chains u).links v
    let lv := (E.chains v).links u
    if E.chainsize P u = 0 then .ok (lu.isSome || lv.isSome)
    else
      match lv, lu with
      | none, none => .ok init
      | none, some b => .ok (init || !(E.chains u).has b)
      | some a, none => .ok (!(E.chains v).has a || init)
      | some a, some b =>
        if (E.chains v).has a && (E.chains u).has b then
          if P.Q ≤ a ∨ P.Q ≤ b then .error .ub
          else .ok (!((P.qn a).contains b || (P.qn b).contains a) && a != b)
        else .ok true

/-- The inner loop of the breadth first search (embedding.hpp:502-507). `comp` is `component`, which
holds exactly the qubits that are marked in `visited`; `visited` has an entry for each free qubit
only. -/
def spread (P : Prob) (c : Chain) : List Nat → List Nat → M (List Nat)
  | [], comp => .ok comp
  | p :: l, comp =>
    if P.nq ≤ p then .error .ub
    else if !comp.contains p && c.has p then spread P c l (comp ++ [p])
    else spread P c l comp

/-- The breadth first search (embedding.hpp:500-508); the second argument is `front`. -/
def flood (P : Prob) (c : Chain) : Nat → Nat → List Nat → M (List Nat)
  | 0, _, _ => .error .diverge
  | n+1, front, comp =>
    match comp[front]? with
    | none => .ok comp
    | some q =>
      if P.Q ≤ q then .error .ub
      else do
        let comp' ← spread P c (P.qn q) comp
        flood P c n (front + 1) comp'

/-- A rooted free chain is not connected (embedding.hpp:492-512). What follows up to line 526 only
prints and is left out. -/
def badRoot (P : Prob) (E : Emb) (v : Nat) : M Bool :=
  match (E.chains v).links v with
  | none => .ok false
  | some r =>
    if P.fixed v then .ok false
    else if P.nq ≤ r then .error .ub
    else do
      let comp ← flood P (E.chains v) (P.nq + 1) 0 [r]
      .ok (E.chainsize P v != comp.length)

/-- The checks of the links and of the root of `v` (embedding.hpp:432-530). -/
def badLinks (P : Prob) (init : Bool) (E : Emb) (v : Nat) : M Bool :=
  if E.chainsize P v = 0 then .ok false
  else do
    let a ← anyErr (P.vn v) (badLink P init E v)
    let b ← badRoot P E v
    .ok (a || b)

/-- The stored fill of a free qubit is not the number of free chains that contain it, or the qubit is
in two of them although an embedding was found (embedding.hpp:533-543). -/
def badFill (P : Prob) (emb : Bool) (E : Emb) (q : Nat) : Bool :=
  let t := cnt (fun v => (E.chains v).has q) P.nv
  decide ((t : Int) ≠ E.w q) || (emb && decide (1 < t))

/-- `run_long_diagnostic` (embedding.hpp:381-552): does it throw? `init` and `emb` are
`ep.initialized` and `ep.embedded`. -/
def longDiagnostic (P : Prob) (init emb : Bool) (E : Emb) : M Bool := do
  let a ← anyErr (List.range P.N) (badChain P E)
  let z := decide (1 < zeros P E) && init
  let b ← anyErr (List.range P.N).reverse (badLinks P init E)
  let f := (List.range P.nq).reverse.any (badFill P emb E)
  .ok (a || z || b || f)

end Diag
end MM
