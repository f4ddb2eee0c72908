import Verif.Core.Basic

/-! Model of include/find_embedding/chain.hpp. -/

namespace MM

/-- Value part of `chain::data` (chain.hpp:72): `qubit -> (parent, refs)`. -/
structure Entry where
  parent : Nat
  refs : Int
  deriving DecidableEq, Repr

/-- `chain` (chain.hpp:69-79). The shared `qubit_weight` vector is passed to and
returned from the operations that touch it. The two `unordered_map`s are partial
functions. -/
structure Chain where
  label : Nat
  data : Nat → Option Entry
  links : Nat → Option Nat

/-- Qubit fills (`qubit_weight`, chain.hpp:71). -/
abbrev Wt := Nat → Int

namespace Chain

/-- `count` (chain.hpp:116). -/
def has (c : Chain) (q : Nat) : Bool := (c.data q).isSome

/-- `size` (chain.hpp:113); `nq` is the number of qubits, which bounds all keys. -/
def size (nq : Nat) (c : Chain) : Nat := cnt c.has nq

/-- Keys of `data` in index order. -/
def keys (nq : Nat) (c : Chain) : List Nat := (List.range nq).filter c.has

/-- The constructor (chain.hpp:83). -/
def empty (l : Nat) : Chain := ⟨l, fun _ => none, fun _ => none⟩

/-- `get_link` (chain.hpp:120-126); `none` is the value `-1`. -/
def getLink (c : Chain) (x : Nat) : Option Nat := c.links x

/-- Add `d` to the reference count of `q` (`retrieve(q).second += d`,
chain.hpp:135, 146, 178, 205, 230-231, 305, 313). -/
def bump (c : Chain) (q : Nat) (d : Int) : M Chain :=
  match c.data q with
  | none => .error .ub
  | some e => .ok { c with data := upd c.data q (some { e with refs := e.refs + d }) }

/-- `set_link` (chain.hpp:130-137). -/
def setLink (c : Chain) (x q : Nat) : M Chain :=
  bump { c with links := upd c.links x (some q) } q 1

/-- `drop_link` (chain.hpp:140-151). -/
def dropLink (c : Chain) (x : Nat) : M (Chain × Option Nat) :=
  match c.links x with
  | none => .ok (c, none)
  | some q => do
    let c' ← bump c q (-1)
    .ok ({ c' with links := upd c'.links x none }, some q)

/-- `set_root` (chain.hpp:155-162). `emplace` does not overwrite. -/
def setRoot (nq : Nat) (c : Chain) (w : Wt) (q : Nat) : M (Chain × Wt) :=
  if q < nq then
    .ok ({ c with
            links := if (c.links c.label).isSome then c.links else upd c.links c.label (some q)
            data := if c.has q then c.data else upd c.data q (some ⟨q, 2⟩) },
         upd w q (w q + 1))
  else .error .ub

/-- `clear` (chain.hpp:165-170). The loop over the keys is one pointwise update. -/
def clear (c : Chain) (w : Wt) : Chain × Wt :=
  (empty c.label, fun q => w q - ind (c.has q))

/-- `operator=(const vector<int>&)` (chain.hpp:91-100): each qubit becomes its own
parent; a repeated qubit is not inserted again but its fill is incremented again. -/
def assignVec (nq : Nat) (c : Chain) (w : Wt) (qs : List Nat) : M (Chain × Wt) :=
  let (c0, w0) := clear c w
  qs.foldlM (init := (c0, w0)) fun (c, w) q =>
    if q < nq then
      .ok ({ c with data := if c.has q then c.data else upd c.data q (some ⟨q, 1⟩) },
           upd w q (w q + 1))
    else .error .ub

/-- `operator=(const chain&)` (chain.hpp:103-110); the label of the target stays. -/
def assign (c : Chain) (w : Wt) (src : Chain) : Chain × Wt :=
  let (c0, w0) := clear c w
  (⟨c0.label, src.data, src.links⟩, fun q => w0 q + ind (src.has q))

/-- `add_leaf` (chain.hpp:173-180). -/
def addLeaf (nq : Nat) (c : Chain) (w : Wt) (q parent : Nat) : M (Chain × Wt) :=
  if q < nq then do
    let c1 := { c with data := if c.has q then c.data else upd c.data q (some ⟨parent, 0⟩) }
    let c2 ← bump c1 parent 1
    .ok (c2, upd w q (w q + 1))
  else .error .ub

/-- `trim_leaf` (chain.hpp:199-211). -/
def trimLeaf (c : Chain) (w : Wt) (q : Nat) : M (Chain × Wt × Nat) :=
  match c.data q with
  | none => .error .ub
  | some e =>
    if e.refs = 0 then do
      let c1 ← bump c e.parent (-1)
      .ok ({ c1 with data := upd c1.data q none }, upd w q (w q - 1), e.parent)
    else .ok (c, w, q)

/-- Loop of `trim_branch` (chain.hpp:185-195). -/
def trimBranchLoop : Nat → Chain → Wt → Nat → M (Chain × Wt × Nat)
  | 0, _, _, _ => .error .diverge
  | fuel+1, c, w, q => do
    let (c', w', p) ← trimLeaf c w q
    if p = q then .ok (c', w', q) else trimBranchLoop fuel c' w' p

/-- `trim_branch` (chain.hpp:185-195). -/
def trimBranch (nq : Nat) (c : Chain) (w : Wt) (q : Nat) : M (Chain × Wt × Nat) :=
  trimBranchLoop (nq + 1) c w q

/-- `adopt` (chain.hpp:222-234). -/
def adopt (c : Chain) (p q : Nat) : M Chain :=
  match c.data q with
  | none => .error .ub
  | some e => do
    let c1 ← bump { c with data := upd c.data q (some ⟨p, e.refs - 1⟩) } p 1
    .ok c1

/-- Loop of `steal` (chain.hpp:296-317). `acc p` is `ep.accepts_qubit(label, p)`. -/
def stealLoop (nq : Nat) (acc : Nat → Bool) (chainsize : Nat) :
    Nat → Chain → Chain → Wt → Nat → Nat → M (Chain × Chain × Wt × Nat × Nat)
  | 0, _, _, _, _, _ => .error .diverge
  | fuel+1, c, o, w, q, p =>
    if (chainsize = 0 ∨ c.size nq < chainsize) ∧ acc p = true then do
      let (o', w1, r) ← trimLeaf o w p
      if r = p then .ok (c, o', w1, q, p)
      else if c.has p then
        if p ≠ q then do
          let c1 ← bump c p 1
          let (c2, w2, _) ← trimBranch nq c1 w1 q
          let c3 ← bump c2 p (-1)
          stealLoop nq acc chainsize fuel c3 o' w2 p r
        else stealLoop nq acc chainsize fuel c o' w1 p r
      else do
        let (c1, w2) ← addLeaf nq c w1 p q
        stealLoop nq acc chainsize fuel c1 o' w2 p r
    else .ok (c, o, w, q, p)

/-- `steal` (chain.hpp:289-325). A missing link (value `-1`) leads to a lookup of
qubit `-1`, which is undefined behaviour on every path. -/
def steal (nq : Nat) (acc : Nat → Bool) (chainsize : Nat) (c o : Chain) (w : Wt) :
    M (Chain × Chain × Wt) := do
  let (c1, q?) ← dropLink c o.label
  let (o1, p?) ← dropLink o c.label
  match q?, p? with
  | some q, some p => do
    let (c2, o2, w2, q', p') ← stealLoop nq acc chainsize (nq + 1) c1 o1 w q p
    let c3 ← setLink c2 o2.label q'
    let o3 ← setLink o2 c2.label p'
    .ok (c3, o3, w2)
  | _, _ => .error .ub

/-- Loop of `link_path` (chain.hpp:341-348): `p` is the current path qubit, `q` the
previous one. `par` is the `parents` vector, `none` standing for `-1`. -/
def linkPathLoop (nq : Nat) (par : Nat → Option Nat) :
    Nat → Chain → Chain → Wt → Nat → Nat → M (Chain × Wt × Nat × Nat)
  | 0, _, _, _, _, _ => .error .diverge
  | fuel+1, c, o, w, q, p =>
    if o.has p then .ok (c, w, q, p)
    else do
      let (c', w') ← if c.has p then do
          let (c1, w1, _) ← trimBranch nq c w q
          pure (c1, w1)
        else addLeaf nq c w p q
      match par p with
      | none => .error .ub
      | some p' => linkPathLoop nq par fuel c' o w' p p'

/-- `link_path` (chain.hpp:333-355). -/
def linkPath (nq : Nat) (c o : Chain) (w : Wt) (q : Nat) (par : Nat → Option Nat) :
    M (Chain × Chain × Wt) := do
  let (c1, w1, q1, p1) ← match par q with
    | none => pure (c, w, q, q)
    | some p => linkPathLoop nq par (nq + 1) c o w q p
  let c2 ← setLink c1 o.label q1
  let o2 ← setLink o c1.label p1
  .ok (c2, o2, w1)

/-- `run_diagnostic` (chain.hpp:394-412): bit 0, some referenced qubit is missing;
bit 1, some reference count is wrong. Only referenced qubits are examined. -/
def runDiagnostic (nv nq : Nat) (c : Chain) : Nat :=
  let refs := fun p => cnt (fun x => c.links x == some p) nv +
    cnt (fun i => (c.data i).any (fun e => e.parent == p)) nq
  (List.range nq).foldl (fun err p =>
    if refs p = 0 then err
    else match c.data p with
      | none => err ||| 1
      | some e => if (refs p : Int) ≠ e.refs then err ||| 2 else err) 0

end Chain
end MM
