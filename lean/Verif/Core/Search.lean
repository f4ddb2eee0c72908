import Verif.Core.Emb

/-! Model of the searches of include/find_embedding/pathfinder.hpp. -/

namespace MM

/-- Scratch state of a pathfinder that the searches work on (pathfinder.hpp:85-102,
embedding_problem.hpp:228). Vectors are total functions; indexing outside their length
is checked where they are indexed. -/
structure Scratch where
  /-- `var_nbrs`, reordered by shuffles -/
  vn : Nat → List Nat
  /-- `parents`, `none` standing for `-1` -/
  par : Nat → Nat → Option Nat
  /-- `visited_list` -/
  vis : Nat → Nat → Int
  /-- `distances` -/
  dist : Nat → Nat → D
  /-- `qubit_permutations` -/
  perm : Nat → Nat → Nat
  tape : Tape

/-- The arrays of one neighbour during a search. -/
structure Front where
  par : Nat → Option Nat
  vis : Nat → Int
  pq : PQ

namespace Front

/-- `pq.emplace(p, permutation[p], d)`; `permutation` has `num_qubits` entries. -/
def push (P : Prob) (perm : Nat → Nat) (F : Front) (p : Nat) (d : D) : M Front :=
  if p < P.nq then do
    let pq ← F.pq.emplace ⟨p, perm p, d⟩
    .ok { F with pq := pq }
  else .error .ub

/-- `visited[p] = x`; `visited` has `num_qubits` entries. -/
def setVis (P : Prob) (F : Front) (p : Nat) (x : Int) : M Front :=
  if p < P.nq then .ok { F with vis := upd F.vis p x } else .error .ub

/-- Seeds next to a fixed chain (pathfinder.hpp:459-475). `use p` is the test made before
queueing (`emb.weight(p) == 0` for `embedded_tag`, none for `default_tag`) and `d p`
the initial distance. -/
def seedFixed (P : Prob) (perm : Nat → Nat) (use : Nat → Bool) (d : Nat → D)
    (qs : List Nat) (F : Front) : M Front :=
  qs.foldlM (init := F) fun F q =>
    (P.qn q).foldlM (init := { F with par := upd F.par q none }) fun F p =>
      if p < P.nq then
        if F.vis p ≠ 0 then .ok F
        else if use p then do
          let F ← push P perm F p (d p)
          setVis P { F with par := upd F.par p (some q) } p 1
        else .ok F
      else .error .ub

/-- Seeds inside a chain (pathfinder.hpp:477-481). -/
def seedFree (P : Prob) (perm : Nat → Nat) (qs : List Nat) (F : Front) : M Front :=
  qs.foldlM (init := F) fun F q => do
    let F ← push P perm F q (some 0)
    setVis P { F with par := upd F.par q none } q 1

/-- `dijkstra_initialize_chain` (pathfinder.hpp:448-483). `qubit_permutations` has
`num_vars + num_reserved` entries (line 128). -/
def init (P : Prob) (E : Emb) (v : Nat) (perm : Nat → Nat) (use : Nat → Bool) (d : Nat → D)
    (F : Front) (t : Tape) : M (Front × Tape) :=
  if v < P.nv + P.nr then do
    let (qs, t) := E.iter P v t
    let F ← (if P.fixed v then seedFixed P perm use d qs F else seedFree P perm qs F : M Front)
    .ok (F, t)
  else .error .ub

/-- Inner loop of the distance computation (pathfinder.hpp:502-512). -/
def expand (P : Prob) (perm : Nat → Nat) (full : Nat → Bool) (qw : Nat → D) (z : Item)
    (F : Front) (dist : Nat → D) : M (Front × (Nat → D)) :=
  (P.qn z.node).foldlM (init := (F, dist)) fun (F, dist) p =>
    if p < P.nq then
      if F.vis p ≠ 0 then .ok (F, dist)
      else do
        let F ← setVis P F p 1
        if full p then .ok (F, upd dist p none)
        else do
          let F ← push P perm { F with par := upd F.par p (some z.node) } p (D.add z.dist (qw p))
          .ok (F, dist)
    else .error .ub

/-- The main loop of `compute_distances_from_chain` (pathfinder.hpp:498-513). -/
def run (P : Prob) (perm : Nat → Nat) (full : Nat → Bool) (qw : Nat → D) :
    Nat → Front → (Nat → D) → M (Front × (Nat → D))
  | 0, _, _ => .error .diverge
  | fuel+1, F, dist =>
    if F.pq.isEmpty then .ok (F, dist)
    else do
      let z ← F.pq.top
      let pq ← F.pq.pop
      let (F, dist) ← expand P perm full qw z { F with pq := pq } (upd dist z.node z.dist)
      run P perm full qw fuel F dist

end Front

namespace Scratch

/-- `prepare_visited` (embedding_problem.hpp:48-50 and 91-98): `-1` where neither variable
may use the qubit. -/
def prepVisited (P : Prob) (u v : Nat) : Nat → Int := fun q =>
  if P.accepts u q || P.accepts v q then 0 else -1

/-- `prepare_distances` (embedding_problem.hpp:52-54 and 100-106). -/
def prepDistances (P : Prob) (u : Nat) : Nat → D := fun q =>
  if P.accepts u q then some 0 else none

/-- `prepare_visited` and `compute_distances_from_chain` for a neighbour `v` of `u`
(pathfinder.hpp:489-514). `full q` is `emb.weight(q) >= ep.weight_bound`. -/
def distancesFrom (P : Prob) (E : Emb) (wb : Int) (qw : Nat → D) (u v : Nat) (S : Scratch) :
    M Scratch := do
  let F : Front := ⟨S.par v, prepVisited P u v, PQ.new P.nq⟩
  let (F, t) ← F.init P E v (S.perm v) (fun _ => true) qw S.tape
  let (F, dist) ← F.run P (S.perm v) (fun q => decide (wb ≤ E.w q)) qw (P.nq + 1) (S.dist v)
  .ok { S with par := upd S.par v F.par, vis := upd S.vis v F.vis, dist := upd S.dist v dist,
               tape := t }

/-- `accumulate_distance_at_chain` (pathfinder.hpp:307-318). -/
def atChain (P : Prob) (E : Emb) (wb : Int) (qw : Nat → D) (v : Nat) (tot : Nat → D) :
    M (Nat → D) :=
  if P.fixed v then .ok tot
  else ((E.chains v).keys P.Q).foldlM (init := tot) fun tot q =>
    if q < P.nq then
      .ok (upd tot q (
        if tot q ≠ none ∧ P.reserved q = false ∧ qw q ≠ none ∧ E.w q < wb ∧ D.lt (some 0) (qw q)
        then D.add (tot q) (qw q) else none))
    else .error .ub

/-- `accumulate_distance` over all free qubits (pathfinder.hpp:322-333). -/
def accum (P : Prob) (E : Emb) (wb : Int) (vis : Nat → Int) (dist : Nat → D) (tot : Nat → D) :
    Nat → D := fun q =>
  if q < P.nq then
    if vis q = 1 ∧ tot q ≠ none ∧ P.reserved q = false ∧ dist q ≠ none ∧ E.w q < wb
    then D.add (tot q) (dist q) else none
  else tot q

/-- The larger of two distances. -/
def dmax (a b : D) : D := if D.lt a b then b else a

/-- `prepare_root_distances` of the serial pathfinder (pathfinder.hpp:722-745). `weight`
stands for the weight table: `weight maxfill fill`. -/
def rootSerial (P : Prob) (weight : Int → Int → D) (E : Emb) (wb : Int) (u : Nat) (S : Scratch) :
    M ((Nat → D) × Scratch) := do
  let mw := E.maxWeight 0 P.nq
  let qw := fun q => weight mw (E.w q)
  let (tot, n, S) ← (S.vn u).foldlM (init := (prepDistances P u, 0, S)) fun (tot, n, S) v =>
    if E.chainsize P v = 0 then .ok (tot, n, S)
    else do
      let S ← distancesFrom P E wb qw u v S
      let tot ← atChain P E wb qw v tot
      .ok (accum P E wb (S.vis v) (S.dist v) tot, n + 1, S)
  .ok (if n = 0 then
      (fun q => if q < P.nq then (if wb ≤ E.w q then none else dmax (qw q) (tot q)) else tot q)
    else tot, S)

/-- `prepare_root_distances` of the parallel pathfinder (pathfinder.hpp:827-856). The
workers handle different neighbours and write disjoint arrays; they are run here one
after the other (see `Verif.Par` for the hand-out of jobs). -/
def rootParallel (P : Prob) (weight : Int → Int → D) (E : Emb) (wb : Int) (u : Nat) (S : Scratch) :
    M ((Nat → D) × Scratch) := do
  let mw := E.maxWeight 0 P.nq
  let qw := fun q => weight mw (E.w q)
  let (n, S) ← (S.vn u).foldlM (init := (0, S)) fun (n, S) v =>
    if E.chainsize P v = 0 then .ok (n, S)
    else do
      let S ← distancesFrom P E wb qw u v S
      .ok (n + 1, S)
  let tot ← (S.vn u).foldlM (init := prepDistances P u) fun tot v => atChain P E wb qw v tot
  let tot := (S.vn u).foldl (init := tot) fun tot v =>
    if E.chainsize P v = 0 then tot else accum P E wb (S.vis v) (S.dist v) tot
  .ok (if n = 0 then
      (fun q => if q < P.nq then (if wb ≤ E.w q then none else tot q) else tot q)
    else tot, S)

/-- One step of `collectMinima` (util.hpp:244-252); the state is the output so far and
the lowest value. -/
def minStep (s : List Nat × D) (i : Nat) (y : D) : List Nat × D :=
  if y = s.2 then (s.1 ++ [i], s.2)
  else if D.lt y s.2 then ([i], y) else s

/-- `collectMinima` (util.hpp:239-253) on the first `n` entries of `tot`. -/
def collectMinima (n : Nat) (tot : Nat → D) : M (List Nat) :=
  if 0 < n then
    .ok ((List.range n).foldl (init := ([], tot 0)) fun s i => minStep s i (tot i)).1
  else .error .ub

/-- swapping entries `i` and `i+1` -/
def swapAt : List Nat → Nat → List Nat
  | a :: b :: l, 0 => b :: a :: l
  | a :: l, i+1 => a :: swapAt l i
  | l, _ => l

/-- `var_neighbors(u, rndswap_first)` (embedding_problem.hpp:317-325). -/
def rndswap (l : List Nat) (t : Tape) : List Nat × Tape :=
  if 2 < l.length then
    let (i, t) := pick (l.length - 1) t
    (swapAt l i, t)
  else if l.length = 2 then
    let (i, t) := pick 2 t
    (if i = 0 then l else swapAt l 0, t)
  else (l, t)

/-- The permutation shuffling at the start of `find_chain` (pathfinder.hpp:353-357). -/
def mixQueues (P : Prob) (u : Nat) (S : Scratch) : M Scratch :=
  let (l, t) := rndswap (S.vn u) S.tape
  let S := { S with vn := upd S.vn u l, tape := t }
  if l.length = 0 then .ok S
  else
    let (i, t) := pick l.length S.tape
    match l[i]? with
    | none => .error .ub
    | some v =>
      if u < P.nv + P.nr ∧ v < P.nv + P.nr then
        .ok { S with perm := upd (upd S.perm u (S.perm v)) v (S.perm u), tape := t }
      else .error .ub

/-- Fixed settings of a run that the searches need. -/
structure Cfg where
  /-- the weight table: `weight maxfill fill` (embedding_problem.hpp:286-304) -/
  weight : Int → Int → D
  /-- `threads > 1` -/
  par : Bool

/-- `find_chain(emb, u, target_chainsize)` (pathfinder.hpp:347-371). -/
def findChain (P : Prob) (C : Cfg) (wb : Int) (cs : Nat) (u : Nat) (E : Emb) (S : Scratch) :
    M (Emb × Scratch × Bool) := do
  let S ← mixQueues P u S
  let (tot, S) ← (if C.par then rootParallel P C.weight E wb u S
    else rootSerial P C.weight E wb u S : M ((Nat → D) × Scratch))
  let mins ← collectMinima P.nq tot
  let (i, t) := pick mins.length S.tape
  match mins[i]? with
  | none => .error .ub
  | some q0 =>
    if tot q0 = none then .ok (E, { S with tape := t }, false)
    else do
      let (E, t) ← E.constructSteiner P (S.vn u) u q0 S.par S.dist S.vis t
      let E ← E.flipBack P (S.vn u) u cs
      .ok (E, { S with tape := t }, true)

/-- Working state of `find_short_chain`: `counts`, `best_size` (`none` = maximal), one
queue per neighbour, and whether `goto finish` was taken. -/
structure Short where
  E : Emb
  S : Scratch
  counts : Nat → Nat
  best : Option Nat
  pqs : Nat → PQ
  fin : Bool

/-- The inner-most loop (pathfinder.hpp:425-433). -/
def shortExpand (P : Prob) (perm : Nat → Nat) (w : Wt) (q d : Nat) (F : Front) : M Front :=
  (P.qn q).foldlM (init := F) fun F p =>
    if p < P.nq then
      if F.vis p ≠ 0 then .ok F
      else do
        let F ← F.setVis P p 1
        if w p = 0 then
          Front.push P perm { F with par := upd F.par p (some q) } p (some d)
        else .ok F
    else .error .ub

/-- Trying a root (pathfinder.hpp:411-421). -/
def tryRoot (P : Prob) (u q stopcheck : Nat) (X : Short) : M Short := do
  let (E, t) ← X.E.constructSteiner P (X.S.vn u) u q X.S.par X.S.dist X.S.vis X.S.tape
  let S := { X.S with tape := t }
  let cs := E.chainsize P u
  if X.best.all (fun b => decide (cs < b)) then
    if cs < stopcheck then .ok { X with E := E, S := S, best := some cs, fin := true }
    else do
      let (E, _) ← E.freezeOut P u
      .ok { X with E := E, S := S, best := some cs }
  else do
    let E ← E.tearOut (S.vn u) u
    .ok { X with E := E, S := S }

/-- The `while` loop for one neighbour and one distance (pathfinder.hpp:403-434). -/
def shortLoop (P : Prob) (u v stopcheck D' : Nat) : Nat → Short → M Short
  | 0, _ => .error .diverge
  | fuel+1, X =>
    if (X.pqs v).isEmpty then .ok X
    else do
      let z ← (X.pqs v).top
      if D.lt (some D') z.dist then .ok X
      else do
        let q := z.node
        let pq ← (X.pqs v).pop
        if q < P.nq then do
          let X := { X with S := { X.S with dist := upd X.S.dist v (upd (X.S.dist v) q z.dist) },
                            pqs := upd X.pqs v pq }
          let X := if X.E.w q = 0 then { X with counts := upd X.counts q (X.counts q + 1) } else X
          let X ← (if X.counts q = (X.S.vn u).length then tryRoot P u q stopcheck X else .ok X :
            M Short)
          if X.fin then .ok X
          else match z.dist with
            | none => .error .ub
            | some d => do
              let F ← shortExpand P (X.S.perm v) X.E.w q (d + 1)
                ⟨X.S.par v, upd (X.S.vis v) q 1, X.pqs v⟩
              shortLoop P u v stopcheck D' fuel { X with
                S := { X.S with par := upd X.S.par v F.par, vis := upd X.S.vis v F.vis },
                pqs := upd X.pqs v F.pq }
        else .error .ub

/-- `find_short_chain` (pathfinder.hpp:378-440). -/
def findShort (P : Prob) (cs u : Nat) (E : Emb) (S : Scratch) : M (Emb × Scratch) := do
  let (E, last) ← E.freezeOut P u
  let (l, t) := permT (S.vn u) S.tape
  let S := { S with vn := upd S.vn u l, tape := t }
  let (S, pqs) ← l.foldlM (init := (S, (fun _ => PQ.new P.nq : Nat → PQ))) fun (S, pqs) v => do
    let F : Front := ⟨S.par v, prepVisited P u v, PQ.new P.nq⟩
    let (F, t) ← F.init P E v (S.perm v) (fun p => decide (E.w p = 0)) (fun _ => some 1) S.tape
    .ok ({ S with par := upd S.par v F.par, vis := upd S.vis v F.vis, tape := t },
         upd pqs v F.pq)
  let X ← (List.range (last + 1)).foldlM (init := (⟨E, S, fun _ => 0, none, pqs, false⟩ : Short))
    fun X D' => l.foldlM (init := X) fun X v =>
      if X.fin then .ok X
      else if v < P.nv + P.nr then shortLoop P u v (max last cs) D' (P.nq + 1) X
      else .error .ub
  let E ← (if X.fin then .ok X.E else X.E.thawBack P u : M Emb)
  let E ← E.flipBack P (X.S.vn u) u cs
  .ok (E, X.S)

end Scratch
end MM
