import Verif.Core.Chain
import Verif.Core.Heap

/-! Model of include/find_embedding/embedding.hpp, on the renumbered problem the
pathfinder works on (variables `0..nv-1` free, `nv..nv+nf-1` fixed; qubits `0..nq-1`
free, `nq..nq+nr-1` reserved). -/

namespace MM

/-- The immutable part of an `embedding_problem` (embedding_problem.hpp:213-262,
126-150, 43-118). -/
structure Prob where
  /-- `num_v`, `num_f`, `num_q`, `num_r` -/
  nv : Nat
  nf : Nat
  nq : Nat
  nr : Nat
  /-- `qubit_nbrs` -/
  qn : Nat → List Nat
  /-- `var_nbrs`, before any shuffling -/
  vn : Nat → List Nat
  /-- `accepts_qubit(v, q)`, i.e. `masks[v][q] == 0` -/
  accepts : Nat → Nat → Bool
  /-- `params.fixed_chains` after renumbering; a value for each fixed variable -/
  fixedChain : Nat → List Nat

namespace Prob

/-- number of variables, free and fixed -/
def N (P : Prob) : Nat := P.nv + P.nf
/-- number of qubits, free and reserved -/
def Q (P : Prob) : Nat := P.nq + P.nr
/-- `fixed` (embedding_problem.hpp:147) -/
def fixed (P : Prob) (v : Nat) : Bool := decide (P.nv ≤ v)
/-- `reserved` (embedding_problem.hpp:149) -/
def reserved (P : Prob) (q : Nat) : Bool := decide (P.nq ≤ q)

end Prob

/-- `frozen_chain` (chain.hpp:60-67). Keys `v >= 0` of `links` are `own`, keys
`-v-1` are `peer`; the stored value `-1` is `none`. -/
structure Frozen where
  data : Nat → Option Entry
  own : Nat → Option Nat
  peer : Nat → Option (Option Nat)

/-- `embedding` (embedding.hpp:40-58). -/
structure Emb where
  chains : Nat → Chain
  w : Wt
  fr : Frozen

namespace Emb

/-- Constructor of an empty embedding (embedding.hpp:63-78). -/
def empty : Emb where
  chains := Chain.empty
  w := fun _ => 0
  fr := ⟨fun _ => none, fun _ => none, fun _ => none⟩

/-- `chainsize` (embedding.hpp:127). -/
def chainsize (P : Prob) (E : Emb) (v : Nat) : Nat := (E.chains v).size P.Q

/-- Iteration over a chain: its qubits in an arbitrary order (`unordered_map`). -/
def iter (P : Prob) (E : Emb) (v : Nat) (t : Tape) : List Nat × Tape :=
  permT ((E.chains v).keys P.Q) t

/-- `max_weight` over a range (embedding.hpp:137-140). -/
def maxWeight (E : Emb) (start stop : Nat) : Int :=
  (List.range (stop - start)).foldl (fun m i => max m (E.w (start + i))) (E.w start)

/-- `set_chain` and `fix_chain` (embedding.hpp:145-165). -/
def setChain (P : Prob) (E : Emb) (u : Nat) (qs : List Nat) : M Emb := do
  let (c, w) ← Chain.assignVec P.Q (E.chains u) E.w qs
  .ok { E with chains := upd E.chains u c, w := w }

/-- `var_embedding[a].steal(var_embedding[b], ep, cs)`. -/
def stealPair (P : Prob) (E : Emb) (cs a b : Nat) : M Emb := do
  let (c, o, w) ← Chain.steal P.Q (P.accepts a) cs (E.chains a) (E.chains b) E.w
  .ok { E with chains := upd (upd E.chains a c) b o, w := w }

/-- `visited[v][p] ? distances[v][p] : max_distance` (embedding.hpp:204, 207).
`visited[v]` has `num_qubits` entries. -/
def seen (P : Prob) (vis : Nat → Nat → Int) (dist : Nat → Nat → D) (v p : Nat) : M D :=
  if p < P.nq then .ok (if vis v p ≠ 0 then dist v p else none) else .error .ub

/-- Choice of the Steiner qubit (embedding.hpp:203-214). -/
def steinerPick (P : Prob) (c : Chain) (ks : List Nat) (q v : Nat)
    (vis : Nat → Nat → Int) (dist : Nat → Nat → D) : M Nat := do
  let d0 ← seen P vis dist v q
  let (qv, _) ← ks.foldlM (init := (q, d0)) fun (qv, dqv) p =>
    match c.data p with
    | none => .error .ub
    | some e =>
      if 1 < e.refs then do
        let dp ← seen P vis dist v p
        .ok (if D.lt dp dqv then (p, dp) else (qv, dqv))
      else .ok (qv, dqv)
  .ok qv

/-- `construct_chain_steiner` (embedding.hpp:198-218). -/
def constructSteiner (P : Prob) (E : Emb) (vnu : List Nat) (u q : Nat)
    (par : Nat → Nat → Option Nat) (dist : Nat → Nat → D) (vis : Nat → Nat → Int) (t : Tape) :
    M (Emb × Tape) := do
  let (c, w) ← Chain.setRoot P.Q (E.chains u) E.w q
  vnu.foldlM (init := ({ E with chains := upd E.chains u c, w := w }, t)) fun (E, t) v =>
    if E.chainsize P v ≠ 0 then do
      let (ks, t) := E.iter P u t
      let qv ← steinerPick P (E.chains u) ks q v vis dist
      let (c, o, w) ← Chain.linkPath P.Q (E.chains u) (E.chains v) E.w qv (par v)
      .ok ({ E with chains := upd (upd E.chains u c) v o, w := w }, t)
    else .ok (E, t)

/-- `flip_back` (embedding.hpp:225-229). -/
def flipBack (P : Prob) (E : Emb) (vnu : List Nat) (u cs : Nat) : M Emb :=
  vnu.foldlM (init := E) fun E v =>
    if E.chainsize P v ≠ 0 ∧ P.fixed v = false then stealPair P E cs v u else .ok E

/-- `tear_out` (embedding.hpp:233-237). -/
def tearOut (E : Emb) (vnu : List Nat) (u : Nat) : M Emb :=
  let (c, w) := Chain.clear (E.chains u) E.w
  vnu.foldlM (init := { E with chains := upd E.chains u c, w := w }) fun E v => do
    let (o, _) ← Chain.dropLink (E.chains v) u
    .ok { E with chains := upd E.chains v o }

/-- `freeze_out` (embedding.hpp:245-249) and `chain::freeze` (chain.hpp:246-263).
The loop runs over the links of `u`, each of which touches a different chain, so its
order does not matter. -/
def freezeOut (P : Prob) (E : Emb) (u : Nat) : M (Emb × Nat) := do
  let cu := E.chains u
  let (chains, peer) ← (List.range P.N).foldlM (init := (E.chains, (fun _ => none : Nat → Option (Option Nat))))
    fun (chains, peer) v =>
      if (cu.links v).isSome ∧ v ≠ u then do
        let (o, q) ← Chain.dropLink (chains v) u
        .ok (upd chains v o, upd peer v (some q))
      else .ok (chains, peer)
  .ok ({ chains := upd chains u (Chain.empty cu.label)
         w := fun q => E.w q - ind (cu.has q)
         fr := ⟨cu.data, cu.links, peer⟩ }, cu.size P.Q)

/-- `thaw_back` (embedding.hpp:256-259) and `chain::thaw` (chain.hpp:267-282).
`set_link(label, -1)` is undefined behaviour. -/
def thawBack (P : Prob) (E : Emb) (u : Nat) : M Emb := do
  let cu := E.chains u
  let cu' : Chain := ⟨cu.label, E.fr.data, fun v => (cu.links v).or (E.fr.own v)⟩
  let chains ← (List.range P.N).foldlM (init := upd E.chains u cu') fun chains v =>
    match E.fr.peer v with
    | none => .ok chains
    | some none => .error .ub
    | some (some p) => do
      let o ← Chain.setLink (chains v) u p
      .ok (upd chains v o)
  .ok { chains := chains
        w := fun q => E.w q + ind ((E.fr.data q).isSome)
        fr := { E.fr with data := cu.data } }

/-- `steal_all` (embedding.hpp:262-270). -/
def stealAll (P : Prob) (E : Emb) (vnu : List Nat) (u : Nat) : M Emb :=
  vnu.foldlM (init := E) fun E v =>
    if P.fixed v then .ok E
    else if ((E.chains u).links v).isNone then .ok E
    else if ((E.chains v).links u).isNone then .ok E
    else stealPair P E 0 u v

/-- `linked(u)` (embedding.hpp:311-316). -/
def linked1 (E : Emb) (vnu : List Nat) (u : Nat) : Bool :=
  ((E.chains u).links u).isSome && vnu.all (fun v => ((E.chains u).links v).isSome)

/-- `linked()` (embedding.hpp:304-308). -/
def linked (P : Prob) (E : Emb) (vn : Nat → List Nat) : Bool :=
  (List.range P.nv).all (fun u => E.linked1 (vn u) u)

/-- First qubit `q` of `qs`, with a qubit `p` of chain `c` next to it
(embedding.hpp:325-333). -/
def firstTouch (P : Prob) (c : Chain) : List Nat → Option (Nat × Nat)
  | [] => none
  | q :: qs => match (P.qn q).find? c.has with
    | some p => some (q, p)
    | none => firstTouch P c qs

/-- `linkup` (embedding.hpp:321-342). The returned flag is never used. -/
def linkup (P : Prob) (E : Emb) (u v : Nat) (t : Tape) : M (Emb × Tape) :=
  if ((E.chains u).links v).isSome && ((E.chains v).links u).isSome then .ok (E, t)
  else
    let (vs, t) := E.iter P v t
    match firstTouch P (E.chains u) vs with
    | some (q, p) => do
      let cu ← Chain.setLink (E.chains u) v p
      let chains := upd E.chains u cu
      let cv ← Chain.setLink (chains v) u q
      .ok ({ E with chains := upd chains v cv }, t)
    | none =>
      let (us, t) := E.iter P u t
      match us.find? (E.chains v).has with
      | some q => do
        let cu ← Chain.setLink (E.chains u) v q
        let chains := upd E.chains u cu
        let cv ← Chain.setLink (chains v) u q
        .ok ({ E with chains := upd chains v cv }, t)
      | none => .ok (E, t)

/-- The body of the search loop in the constructor (embedding.hpp:99-107): `stack` is
the stack, top first. -/
def adoptLoop (P : Prob) (root : Nat) : Nat → Chain → List Nat → Nat → M (Chain × Nat)
  | _, c, [], hits => .ok (c, hits)
  | 0, _, _ :: _, _ => .error .diverge
  | fuel+1, c, p :: stack, hits => do
    let (c, stack) ← (P.qn p).foldlM (init := (c, stack)) fun (c, stack) q =>
      match c.data q with
      | none => .ok (c, stack)
      | some e =>
        if q ≠ root ∧ e.parent = q then do
          let c ← Chain.adopt c p q
          .ok (c, q :: stack)
        else .ok (c, stack)
    adoptLoop P root fuel c stack (hits + 1)

/-- One iteration of the second loop of the constructor (embedding.hpp:91-112). -/
def initOne (P : Prob) (E : Emb) (v : Nat) (qs : List Nat) (t : Tape) : M (Emb × Tape) :=
  match qs with
  | [] => .error .ub
  | root :: _ => do
    let c ← Chain.setLink (E.chains v) v root
    let (c, hits) ← adoptLoop P root (P.Q + 1) c [root] 0
    let c ← (if hits ≠ c.size P.Q then do
        let (c, _) ← Chain.dropLink c v
        pure c
      else pure c : M Chain)
    (P.vn v).foldlM (init := ({ E with chains := upd E.chains v c }, t)) fun (E, t) u =>
      if v < u then linkup P E v u t else .ok (E, t)

/-- Constructor for an initial embedding (embedding.hpp:83-114). `init` lists the
entries of `initial_chains` in key order. -/
def construct (P : Prob) (init : List (Nat × List Nat)) (t : Tape) : M (Emb × Tape) := do
  let E ← ((List.range P.nf).map (P.nv + ·)).foldlM (init := empty) fun E v =>
    setChain P E v (P.fixedChain v)
  let E ← init.foldlM (init := E) fun E (v, qs) =>
    if P.fixed v then .ok E else setChain P E v qs
  init.foldlM (init := (E, t)) fun (E, t) (v, qs) => initOne P E v qs t

/-- `operator=` (embedding.hpp:117-121): chain by chain. -/
def copy (P : Prob) (E other : Emb) : Emb :=
  (List.range P.N).foldl (init := E) fun E v =>
    let (c, w) := Chain.assign (E.chains v) E.w (other.chains v)
    { E with chains := upd E.chains v c, w := w }

/-- The qubit part of `statistics` (embedding.hpp:279-289): the overfill histogram, or
nothing if no free qubit is overfull. Writing outside the histogram is undefined
behaviour. -/
def overfillStats (P : Prob) (E : Emb) : M (Option (List Nat)) := do
  let (W, h) ← (List.range P.nq).reverse.foldlM (init := ((0 : Int), fun _ : Nat => 0))
    fun (W, h) q =>
      let w := E.w q
      let W := max W w
      if 1 < w then
        if (w - 2).toNat < P.N then
          .ok (W, upd h (w - 2).toNat (h (w - 2).toNat + 1))
        else .error .ub
      else .ok (W, h)
  .ok (if 1 < W then some ((List.range (W - 1).toNat).map h) else none)

/-- The chain length part of `statistics` (embedding.hpp:291-299). -/
def lengthStats (P : Prob) (E : Emb) : M (List Nat) := do
  let (W, h) ← (List.range P.nv).reverse.foldlM (init := (0, fun _ : Nat => 0))
    fun (W, h) v =>
      let w := E.chainsize P v
      if w < P.Q + 1 then .ok (max W w, upd h w (h w + 1)) else .error .ub
  .ok ((List.range (W + 1)).map h)

/-- `statistics` (embedding.hpp:278-300). -/
def statistics (P : Prob) (E : Emb) : M (Bool × List Nat) := do
  match ← overfillStats P E with
  | some h => .ok (false, h)
  | none => do
    let h ← lengthStats P E
    .ok (true, h)

end Emb
end MM
