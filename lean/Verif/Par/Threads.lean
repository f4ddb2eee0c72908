import Verif.Core.Search
import Verif.Par.Jobs

/-! Model of the threads of `pathfinder_parallel::prepare_root_distances`
(include/find_embedding/pathfinder.hpp:764-856) on shared memory: the workers make steps one at
a time, in any order. -/

namespace MM
namespace Par

/-! ### workers on ranges of an array -/

/-- One access of a worker to an entry of a shared array: the index, and the new value as a
function of the old. -/
abbrev Access (α : Type) := Nat × (α → α)

/-- What is left of each worker's loop, and the shared array. -/
structure Ranges (α : Type) where
  prog : Nat → List (Access α)
  mem : Nat → α

/-- One step of worker `i`: its next access. -/
inductive RangeStep {α : Type} (i : Nat) : Ranges α → Ranges α → Prop
  | access {X : Ranges α} {q : Nat} {f : α → α} {l : List (Access α)} : X.prog i = (q, f) :: l →
      RangeStep i X ⟨upd X.prog i l, upd X.mem q (f (X.mem q))⟩

/-- All futures are ready (pathfinder.hpp:800 and 814). -/
def Ranges.Done {α : Type} (k : Nat) (X : Ranges α) : Prop := ∀ i, i < k → X.prog i = []

/-- The qubits of the worker started as number `j` (pathfinder.hpp:791-799). -/
def range (n k j : Nat) : List Nat :=
  match (chunks n k)[j]? with
  | none => []
  | some c => List.range' c.1 (c.2 - c.1)

/-- `thread_weight[i] = emb.max_weight(a, b)` (pathfinder.hpp:827); the worker started as
number `j` has index `k - 1 - j`. -/
def weighProg (P : Prob) (E : Emb) (k j : Nat) : List (Access Int) :=
  match (chunks P.nq k)[j]? with
  | none => []
  | some c => [(k - 1 - j, fun _ => E.maxWeight c.1 c.2)]

/-- `*std::max_element(begin(thread_weight), end(thread_weight))` (pathfinder.hpp:829); undefined
for an empty vector. -/
def maxElement (k : Nat) (tw : Nat → Int) : M Int :=
  if 0 < k then .ok ((List.range k).foldl (fun m i => max m (tw i)) (tw 0)) else .error .ub

/-- `compute_qubit_weights(emb, a, b)` and `prepare_distances(total_distance, u, max_distance, a, b)`
(pathfinder.hpp:832-835); an entry of the array is the pair of `qubit_weight[q]` and
`total_distance[q]`. -/
def prepProg (P : Prob) (weight : Int → Int → D) (E : Emb) (u : Nat) (mw : Int) (k j : Nat) : List (Access (D × D)) :=
  (range P.nq k j).map (fun q => (q, fun x => (weight mw (E.w q), x.2))) ++
  (range P.nq k j).map (fun q => (q, fun x => (x.1, if P.accepts u q then some 0 else none)))

/-- One entry of `accumulate_distance` (pathfinder.hpp:325-332). -/
def accumCell (P : Prob) (E : Emb) (wb : Int) (vis : Int) (d : D) (q : Nat) (tot : D) : D :=
  if vis = 1 ∧ tot ≠ none ∧ P.reserved q = false ∧ d ≠ none ∧ E.w q < wb then D.add tot d else none

/-! ### searches from the neighbours -/

/-- The arrays of one neighbour in `parents`, `visited_list` and `distances`. -/
structure Row where
  par : Nat → Option Nat
  vis : Nat → Int
  dist : Nat → D

/-- Where a worker is in `prepare_visited` and `compute_distances_from_chain`, with its own
variables. -/
inductive Ctrl where
  /-- before `prepare_visited` -/
  | begin
  /-- line 477, with the rest of the chain -/
  | free (qs : List Nat) (pq : PQ)
  /-- line 459, with the rest of the chain -/
  | fixed (qs : List Nat) (pq : PQ)
  /-- line 461, at qubit `q` of a fixed chain, with the rest of its neighbours -/
  | beside (qs : List Nat) (q : Nat) (ps : List Nat) (pq : PQ)
  /-- line 498 -/
  | loop (pq : PQ)
  /-- line 502, with the rest of the neighbours of `z.node` -/
  | expand (z : Item) (ps : List Nat) (pq : PQ)
  /-- returned -/
  | fin

/-- What the searches only read: the embedding, the bound, the weights, the variable, the queue
orders and the order in which a hash map gives each chain. -/
structure Fixed where
  P : Prob
  E : Emb
  wb : Int
  qw : Nat → D
  u : Nat
  perm : Nat → Nat → Nat
  ord : Nat → List Nat

/-- One step of a search from the chain of `v` (pathfinder.hpp:448-514 and, as one step,
`prepare_visited`). -/
def next (K : Fixed) (v : Nat) : Ctrl × Row → M (Ctrl × Row)
  | (.begin, r) =>
    if v < K.P.nv + K.P.nr then
      .ok (if K.P.fixed v then .fixed (K.ord v) (PQ.new K.P.nq) else .free (K.ord v) (PQ.new K.P.nq),
        { r with vis := Scratch.prepVisited K.P K.u v })
    else .error .ub
  | (.free [] pq, r) => .ok (.loop pq, r)
  | (.free (q :: qs) pq, r) => do
    let F ← Front.push K.P (K.perm v) ⟨r.par, r.vis, pq⟩ q (some 0)
    let F ← Front.setVis K.P { F with par := upd F.par q none } q 1
    .ok (.free qs F.pq, ⟨F.par, F.vis, r.dist⟩)
  | (.fixed [] pq, r) => .ok (.loop pq, r)
  | (.fixed (q :: qs) pq, r) => .ok (.beside qs q (K.P.qn q) pq, { r with par := upd r.par q none })
  | (.beside qs _ [] pq, r) => .ok (.fixed qs pq, r)
  | (.beside qs q (p :: ps) pq, r) =>
    if p < K.P.nq then
      if r.vis p ≠ 0 then .ok (.beside qs q ps pq, r)
      else do
        let F ← Front.push K.P (K.perm v) ⟨r.par, r.vis, pq⟩ p (K.qw p)
        let F ← Front.setVis K.P { F with par := upd F.par p (some q) } p 1
        .ok (.beside qs q ps F.pq, ⟨F.par, F.vis, r.dist⟩)
    else .error .ub
  | (.loop pq, r) =>
    if pq.isEmpty then .ok (.fin, r)
    else do
      let z ← pq.top
      let pq ← pq.pop
      .ok (.expand z (K.P.qn z.node) pq, { r with dist := upd r.dist z.node z.dist })
  | (.expand _ [] pq, r) => .ok (.loop pq, r)
  | (.expand z (p :: ps) pq, r) =>
    if p < K.P.nq then
      if r.vis p ≠ 0 then .ok (.expand z ps pq, r)
      else do
        let F ← Front.setVis K.P ⟨r.par, r.vis, pq⟩ p 1
        if K.wb ≤ K.E.w p then .ok (.expand z ps F.pq, ⟨F.par, F.vis, upd r.dist p none⟩)
        else do
          let F ← Front.push K.P (K.perm v) { F with par := upd F.par p (some z.node) } p (D.add z.dist (K.qw p))
          .ok (.expand z ps F.pq, ⟨F.par, F.vis, r.dist⟩)
    else .error .ub
  | (.fin, r) => .ok (.fin, r)

/-- The threads of `run_in_thread` with their searches and the shared arrays. -/
structure Threads where
  J : Jobs
  ctl : Nat → Ctrl
  row : Nat → Row

/-- One step of worker `i`: of its search, or else of `run_in_thread` itself. -/
inductive ThreadStep (K : Fixed) (vn : List Nat) (i : Nat) : Threads → Threads → Prop
  | search {X : Threads} {v : Nat} {c : Ctrl} {r : Row} : X.J.pc i = .work v → X.ctl i ≠ .fin →
      next K v (X.ctl i, X.row v) = .ok (c, r) →
      ThreadStep K vn i X ⟨X.J, upd X.ctl i c, upd X.row v r⟩
  | job {X : Threads} {J : Jobs} : (∀ v, X.J.pc i = .work v → X.ctl i = .fin) →
      Step vn (fun v => decide (K.E.chainsize K.P v ≠ 0)) i X.J J → ThreadStep K vn i X ⟨J, upd X.ctl i .begin, X.row⟩

/-- A worker is about to do something undefined. -/
def Threads.Bad (K : Fixed) (k : Nat) (X : Threads) : Prop :=
  ∃ i v e, i < k ∧ X.J.pc i = .work v ∧ next K v (X.ctl i, X.row v) = .error e

/-! ### the whole -/

/-- The settings of a call of `prepare_root_distances` and of what it finds in memory. -/
structure Call where
  P : Prob
  weight : Int → Int → D
  E : Emb
  wb : Int
  u : Nat
  /-- `num_threads` -/
  k : Nat
  /-- the order in which iterating over each chain gives its qubits -/
  ord : Nat → List Nat
  S : Scratch
  /-- what is in `thread_weight` -/
  tw : Nat → Int
  /-- what is in `qubit_weight` and `total_distance` -/
  old : Nat → D × D

/-- What the searches read, when the array of weights is `m`. -/
def Call.fixed (C : Call) (qw : Nat → D) : Fixed := ⟨C.P, C.E, C.wb, qw, C.u, C.S.perm, C.ord⟩

/-- The last loop (pathfinder.hpp:847-856). -/
def sumProg (C : Call) (row : Nat → Row) (emb : Nat) (j : Nat) : List (Access D) :=
  ((C.S.vn C.u).filter fun v => decide (C.E.chainsize C.P v ≠ 0)).flatMap (fun v =>
    (range C.P.nq C.k j).map fun q => (q, accumCell C.P C.E C.wb ((row v).vis q) ((row v).dist q) q)) ++
  (if emb = 0 then (range C.P.nq C.k j).map fun q => (q, fun t => if C.wb ≤ C.E.w q then none else t) else [])

/-- The stages of `prepare_root_distances`; each but the last has its threads. -/
inductive Stage where
  | weigh (X : Ranges Int)
  | prep (X : Ranges (D × D))
  | search (m : Nat → D × D) (X : Threads)
  | sum (row : Nat → Row) (X : Ranges D)
  | done (tot : Nat → D) (row : Nat → Row)

/-- One step: of a worker, or of the main thread once all workers of the stage are done
(pathfinder.hpp:827-856). -/
inductive Call.Step (C : Call) : Stage → Stage → Prop
  | weigh {i X X'} : i < C.k → RangeStep i X X' → C.Step (.weigh X) (.weigh X')
  | weighed {X mw} : X.Done C.k → maxElement C.k X.mem = .ok mw →
      C.Step (.weigh X) (.prep ⟨prepProg C.P C.weight C.E C.u mw C.k, C.old⟩)
  | prep {i X X'} : i < C.k → RangeStep i X X' → C.Step (.prep X) (.prep X')
  | prepared {X} : X.Done C.k → C.Step (.prep X)
      (.search X.mem ⟨Jobs.init, fun _ => .begin, fun v => ⟨C.S.par v, C.S.vis v, C.S.dist v⟩⟩)
  | search {i m X X'} : i < C.k → ThreadStep (C.fixed fun q => (m q).1) (C.S.vn C.u) i X X' →
      C.Step (.search m X) (.search m X')
  | searched {m X tot} : (∀ i, i < C.k → X.J.pc i = .done) →
      (C.S.vn C.u).foldlM (init := fun q => (m q).2)
        (fun tot v => Scratch.atChain C.P C.E C.wb (fun q => (m q).1) v tot) = .ok tot →
      C.Step (.search m X) (.sum X.row ⟨sumProg C X.row X.J.emb, tot⟩)
  | sum {i row X X'} : i < C.k → RangeStep i X X' → C.Step (.sum row X) (.sum row X')
  | summed {row X} : X.Done C.k → C.Step (.sum row X) (.done X.mem row)

/-- The start of `prepare_root_distances`. -/
def Call.start (C : Call) : Stage := .weigh ⟨weighProg C.P C.E C.k, C.tw⟩

/-- The stages reached under some schedule. -/
inductive Call.Reached (C : Call) : Stage → Prop
  | start : C.Reached C.start
  | step {X Y} : C.Reached X → C.Step X Y → C.Reached Y

/-! ### `find_chain` on top of it -/

/-- What `find_chain` does with the total distances (pathfinder.hpp:361-370). -/
def pickRoot (P : Prob) (cs u : Nat) (E : Emb) (tot : Nat → D) (S : Scratch) : M (Emb × Scratch × Bool) := do
  let mins ← Scratch.collectMinima P.nq tot
  let (i, t) := pick mins.length S.tape
  match mins[i]? with
  | none => .error .ub
  | some q0 =>
    if tot q0 = none then .ok (E, { S with tape := t }, false)
    else do
      let (E, t) ← E.constructSteiner P (S.vn u) u q0 S.par S.dist S.vis t
      let E ← E.flipBack P (S.vn u) u cs
      .ok (E, { S with tape := t }, true)

/-- `find_chain` of a pathfinder with `k` threads (pathfinder.hpp:347-371) can end in `out`: for
some order in which the chains are iterated over, some leftovers in the arrays and some
schedule of the threads. -/
def Finds (P : Prob) (weight : Int → Int → D) (k : Nat) (wb : Int) (cs u : Nat) (E : Emb) (S : Scratch)
    (out : M (Emb × Scratch × Bool)) : Prop :=
  ∃ S1, Scratch.mixQueues P u S = .ok S1 ∧ ∃ ord tw old tot row, (∀ v, (ord v).Perm ((E.chains v).keys P.Q)) ∧
    (⟨P, weight, E, wb, u, k, ord, S1, tw, old⟩ : Call).Reached (.done tot row) ∧
    pickRoot P cs u E tot { S1 with par := fun v => (row v).par, vis := fun v => (row v).vis, dist := fun v => (row v).dist } = out

end Par
end MM
