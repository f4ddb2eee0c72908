import Verif.Py.Labels
import Verif.Py.Diag
import Verif.Graph.Param

/-! Model of `_input_parser`, `_get_chainmap` and `find_embedding` of minorminer/_minorminer.pyx. All labels are
of one type, that of Python objects. The scalar parameters (_minorminer.pyx 331-400) are read in `Py/Options.lean`. -/

namespace MM
namespace Py

open Scratch (Cfg)

/-- How a call can end otherwise than with a result. -/
inductive PyErr where
  | emptySource
  | value
  | runtime
  | index
  | core (f : Fault)
  deriving DecidableEq, Repr

variable {α : Type} [DecidableEq α]

/-- The graphs and chain arguments of `find_embedding(S, T, **params)`; dicts are lists of their items. `srcN` and
`tgtN` are the nodes, if a graph object was given instead of a list of edges. -/
structure Args (α : Type) where
  srcE : List (α × α)
  srcN : Option (List α)
  tgtE : List (α × α)
  tgtN : Option (List α)
  fixed : List (α × List α)
  initial : List (α × List α)
  restr : List (α × List α)
  suspend : List (α × List (List α))

/-- `std::map::insert`: entries in key order, an existing entry stays. -/
def insertKey (k : Int) (c : List Int) : ChainMap → ChainMap
  | [] => [(k, c)]
  | kc :: m => if k < kc.1 then (k, c) :: kc :: m else if k = kc.1 then kc :: m else kc :: insertKey k c m

/-- The numbers of the nodes of a chain (_minorminer.pyx 689-693). -/
def chainNums (TL : LabelDict α) : List α → Except PyErr (List Int)
  | [] => .ok []
  | x :: l =>
    match TL.idx x with
    | none => .error .runtime
    | some i =>
      match chainNums TL l with
      | .error e => .error e
      | .ok c => .ok ((i : Int) :: c)

/-- `_get_chainmap` (_minorminer.pyx 682-697) for a dict. -/
def chainmap (SL TL : LabelDict α) : List (α × List α) → ChainMap → Except PyErr ChainMap
  | [], m => .ok m
  | kv :: C, m =>
    if kv.2 = [] then chainmap SL TL C m
    else
      match chainNums TL kv.2 with
      | .error e => .error e
      | .ok c =>
        match SL.idx kv.1 with
        | none => .error .runtime
        | some i => chainmap SL TL C (insertKey i c m)

/-- The parts of `_input_parser` the loop over `suspend_chains` works on. -/
structure PState (α : Type) where
  S : LGraph α
  T : LGraph α
  fixedC : ChainMap
  pins : Nat

/-- The loop over a blob (_minorminer.pyx 429-434). -/
def pinEdges (p : α) : List α → LGraph α → Except PyErr (LGraph α)
  | [], T => .ok T
  | q :: l, T => if T.L.has q then pinEdges p l (T.push p q) else .error .runtime

/-- Body of the loops over `suspend_chains` (_minorminer.pyx 422-444). `p` is the pin label. -/
def addPin (p v : α) (blob : List α) (s : PState α) : Except PyErr (PState α) :=
  if s.S.L.has p then .error .value
  else if s.T.L.has p then .error .value
  else
    match pinEdges p blob s.T with
    | .error e => .error e
    | .ok T =>
      if blob = [] then .ok { s with T := T }
      else
        let r := s.S.L.get p
        let t := T.L.get p
        if r.1.has v then
          .ok { S := { s.S with L := r.1 }.push v p
                T := { T with L := t.1 }
                fixedC := insertKey r.2 [(t.2 : Int)] s.fixedC
                pins := s.pins + 1 }
        else .error .runtime

/-- All blobs, with the label of their pin. `pin v i` stands for the tuple
`("__MINORMINER_INTERNAL_PIN_FOR_SUSPENSION", v, i)` (_minorminer.pyx 420-423). -/
def Args.blobs (pin : α → Nat → α) (a : Args α) : List (α × α × List α) :=
  a.suspend.flatMap fun vb => vb.2.zipIdx.map fun bi => (pin vb.1 bi.2, vb.1, bi.1)

/-- The loops over `suspend_chains` (_minorminer.pyx 420-444). -/
def addPins : List (α × α × List α) → PState α → Except PyErr (PState α)
  | [], s => .ok s
  | b :: l, s =>
    match addPin b.1 b.2.1 b.2.2 s with
    | .error e => .error e
    | .ok s => addPins l s

/-- What `_input_parser` prepares. -/
structure Parsed (α : Type) where
  S : LGraph α
  T : LGraph α
  fixedC : ChainMap
  initC : ChainMap
  restrC : ChainMap
  pins : Nat

/-- `_input_parser.__init__` from line 402. -/
def Args.parse (pin : α → Nat → α) (a : Args α) : Except PyErr (Parsed α) :=
  let S := LGraph.read a.srcE a.srcN
  if S.L.label = [] then .error .emptySource
  else
    let T := LGraph.read a.tgtE a.tgtN
    if T.L.label = [] then .error .value
    else
      match chainmap S.L T.L a.fixed [] with
      | .error e => .error e
      | .ok fx =>
        match chainmap S.L T.L a.initial [] with
        | .error e => .error e
        | .ok ini =>
          match chainmap S.L T.L a.restr [] with
          | .error e => .error e
          | .ok re =>
            match addPins (a.blobs pin) { S := S, T := T, fixedC := fx, pins := 0 } with
            | .error e => .error e
            | .ok s => .ok { S := s.S, T := s.T, fixedC := s.fixedC, initC := ini, restrC := re, pins := s.pins }

/-- The input handed to the C++ code. -/
def Parsed.input (P : Parsed α) : Input :=
  { src := P.S.g
    tgt := P.T.g
    fixedC := P.fixedC
    initC := P.initC
    restrC := P.restrC }

/-- `[TL.label(z) for z in chain]` (_minorminer.pyx 302). -/
def labelsOf (TL : LabelDict α) : List Nat → Except PyErr (List α)
  | [] => .ok []
  | z :: l =>
    match TL.label[z]? with
    | none => .error .index
    | some x =>
      match labelsOf TL l with
      | .error e => .error e
      | .ok c => .ok (x :: c)

/-- The loop over the variables (_minorminer.pyx 299-302) for `v, v+1, …`. -/
def rchain (SL TL : LabelDict α) : Nat → List (List Nat) → Except PyErr (List (α × List α))
  | _, [] => .ok []
  | v, c :: cs =>
    match SL.label[v]?, labelsOf TL c with
    | none, _ => .error .index
    | _, .error e => .error e
    | some x, .ok ls =>
      match rchain SL TL (v + 1) cs with
      | .error e => .error e
      | .ok r => .ok ((x, ls) :: r)

/-- What `find_embedding` returns: a dict, or a dict and a flag. -/
structure Result (α : Type) where
  dict : List (α × List α)
  flag : Option Bool

/-- `find_embedding` (_minorminer.pyx 286-307). -/
def call (pin : α → Nat → α) (sort : List (List Nat) → List (List Nat)) (C : Cfg) (A : Params)
    (returnOverlap : Bool) (a : Args α) (t : Tape) : Except PyErr (Result α) :=
  match a.parse pin with
  | .error .emptySource => .ok { dict := [], flag := none }
  | .error e => .error e
  | .ok P =>
    match findEmbedding sort C A returnOverlap P.input t with
    | .error f => .error (.core f)
    | .ok (ok, cs) =>
      match rchain P.S.L P.T.L 0 (cs.take (cs.length - P.pins)) with
      | .error e => .error e
      | .ok d => .ok { dict := d, flag := if returnOverlap then some ok else none }

/-- The value of a key in a returned dict. -/
def Result.chain (r : Result α) (x : α) : Option (List α) := r.dict.lookup x

end Py
end MM
