import Verif.Graph.Comp
import Verif.Core.Run

/-! Model of include/find_embedding/find_embedding.hpp. -/

namespace MM

open Scratch (Cfg)

/-- A `map<int, vector<int>>`: its entries in key order. -/
abbrev ChainMap := List (Int × List Int)

/-- The arguments of `findEmbedding` (find_embedding.hpp:232): two graphs and the three chain
maps of `optional_parameters` (util.hpp:126-150). -/
structure Input where
  src : IGraph
  tgt : IGraph
  fixedC : ChainMap
  initC : ChainMap
  restrC : ChainMap

namespace Input

/-- An index into an array of `n` entries. -/
def index (n : Nat) (x : Int) : M Nat :=
  if 0 ≤ x ∧ x < (n : Int) then .ok x.toNat else .error .ub

/-- `_reserved` (find_embedding.hpp:72-84): which variables are fixed, which qubits
reserved. The keys and qubits are used as indices before anything has checked them. -/
def reserved (I : Input) : M ((Nat → Bool) × (Nat → Bool)) :=
  I.fixedC.foldlM (init := ((fun _ => false), (fun _ => false))) fun s kv => do
    let v ← index I.src.n kv.1
    let rq ← kv.2.foldlM (init := s.2) fun rq q => do
      let q ← index I.tgt.n q
      .ok (upd rq q true)
    .ok (upd s.1 v true, rq)

/-- `_filter_fixed_vars` (find_embedding.hpp:86-98). The state is `(front, back, unscrew)`. -/
def filterFixed (n nf : Nat) (fx : Nat → Bool) : M (Nat × Nat × (Nat → Nat)) :=
  (List.range n).foldlM (init := (0, n - nf, (fun _ => 0 : Nat → Nat))) fun (front, back, un) i =>
    if fx i then
      if back < n then .ok (front, back + 1, upd un back i) else .error .ub
    else
      if front < n then .ok (front + 1, back, upd un front i) else .error .ub

/-- `_inverse_permutation` (find_embedding.hpp:100-107). -/
def inverse (n : Nat) (f : Nat → Nat) : Nat → Nat :=
  (List.range n).reverse.foldl (init := fun _ => 0) fun r i => upd r (f i) i

/-- Insertion into a `map<int, vector<int>>`. The keys of a map differ and renumbering is
injective, so an entry never meets an earlier one. -/
def insertEntry (k : Nat) (l : List Nat) : List (Nat × List Nat) → List (Nat × List Nat)
  | [] => [(k, l)]
  | e :: m => if k < e.1 then (k, l) :: e :: m else e :: insertEntry k l m

/-- `input_chains` (find_embedding.hpp:110-120). -/
def inputChains (nv nt : Nat) (C : Comps) (screw : Nat → Nat) (m : ChainMap) :
    M (List (Nat × List Nat)) :=
  m.foldlM (init := []) fun out (kv : Int × List Int) =>
    if (0 : Int) ≤ kv.1 ∧ kv.1 < (nv : Int) then
      match C.into nt 0 kv.2 with
      | none => .error .corrupt
      | some l => .ok (insertEntry (screw kv.1.toNat) l out)
    else .error .corrupt

/-- `input_vars` (find_embedding.hpp:122-129). -/
def inputVars (nv : Nat) (fx : Nat → Bool) (vs : List Int) : M (List Nat) :=
  vs.foldlM (init := []) fun out (v : Int) =>
    if (0 : Int) ≤ v ∧ v < (nv : Int) then
      .ok (if fx v.toNat then out else out ++ [v.toNat])
    else .error .corrupt

/-- The entry of a map, nothing if there is none. -/
def entry (m : List (Nat × List Nat)) (v : Nat) : List Nat :=
  match m.lookup v with
  | none => []
  | some l => l

/-- `accepts_qubit` of the two domain handlers (embedding_problem.hpp:61, 76-92, 117). -/
def allowed (m : List (Nat × List Nat)) (v q : Nat) : Bool :=
  match m.lookup v with
  | none => true
  | some l => l.contains q

/-- The largest length of a neighbour list. -/
def maxDegree (N : Nat) (vn : Nat → List Nat) : Nat :=
  (List.range N).foldl (fun m v => max m (vn v).length) 0

/-- `compute_margin` (embedding_problem.hpp:271-282), stored in an `unsigned int`. The
maximum of an empty range is undefined behaviour. -/
def margin (P : Prob) : M Nat :=
  if P.nq = 0 then .ok 0
  else if P.N = 0 then .error .ub
  else
    let d := maxDegree P.N P.vn
    .ok ((if d = 0 then P.nq else d * P.nq) % 2 ^ 32)

end Input

/-- What a `pathfinder_wrapper` holds (find_embedding.hpp:29-51, 144-146). -/
structure Proc where
  comps : Comps
  screw : Nat → Nat
  unscrew : Nat → Nat
  /-- `var_fixed_unscrewed` -/
  fx : Nat → Bool
  P : Prob
  init : List (Nat × List Nat)

namespace Input

/-- `parameter_processor` (find_embedding.hpp:50-69) and the checks of the constructor of
`embedding_problem_base` (embedding_problem.hpp:246). If the component's graph has fewer
nodes than the component has reserved nodes, the count of free qubits is negative; that
is recorded as undefined behaviour. `ultramax_weight` (embedding_problem.hpp:254-256) is
at least 31, so the other exception cannot occur. -/
def process (sort : List (List Nat) → List (List Nat)) (I : Input) : M Proc := do
  let (fx, rq) ← I.reserved
  let C ← Comps.build sort I.tgt rq
  match C.nres[0]? with
  | none => .error .ub
  | some r => do
    let nf := I.fixedC.length
    let (_, _, unscrew) ← filterFixed I.src.n nf fx
    let screw := inverse I.src.n unscrew
    let fixedM ← inputChains I.src.n I.tgt.n C screw I.fixedC
    let initM ← inputChains I.src.n I.tgt.n C screw I.initC
    let restrM ← inputChains I.src.n I.tgt.n C screw I.restrC
    let vn ← I.src.getNeighbors (fun _ => false) fx screw
    let qn ← C.neighbors 0 r
    if C.size 0 < r then .error .ub
    else do
      let P : Prob :=
        { nv := I.src.n - nf, nf := nf, nq := C.size 0 - r, nr := r, qn := qn, vn := vn
          accepts := allowed restrM, fixedChain := entry fixedM }
      let m ← margin P
      if m = 0 then .error .small
      else .ok ⟨C, screw, unscrew, fx, P, initM⟩

end Input

/-- `get_chain` (find_embedding.hpp:156-158): the chain of variable `u` in the numbering of
the caller. -/
def Proc.getChain (p : Proc) (E : Emb) (u : Nat) (t : Tape) : M (List Nat × Tape) := do
  let (l, t) := E.iter p.P (p.screw u) t
  let l ← p.comps.from_ 0 l
  .ok (l, t)

/-- All chains, in the order of the variables. -/
def Proc.getChains (p : Proc) (E : Emb) : List Nat → Tape → M (List (List Nat))
  | [], _ => .ok []
  | u :: us, t => do
    let (c, t) ← p.getChain E u t
    let cs ← p.getChains E us t
    .ok (c :: cs)

/-- `findEmbedding` (find_embedding.hpp:232-247): the success flag and the chains. `C` says
whether the search is parallel and what the weight table holds, `A` has the other
parameters. -/
def findEmbedding (sort : List (List Nat) → List (List Nat)) (C : Cfg) (A : Params)
    (returnOverlap : Bool) (I : Input) (t : Tape) : M (Bool × List (List Nat)) := do
  let p ← I.process sort
  let X ← Run.new p.P p.init t
  let (X, ok) ← Run.heuristic p.P C { A with restricted := !I.restrC.isEmpty } X
  if returnOverlap || ok then do
    let cs ← p.getChains X.best (List.range I.src.n) X.S.tape
    .ok (ok, cs)
  else .ok (ok, [])

end MM
