import Verif.Core.Search

/-! The search of include/find_embedding/pathfinder.hpp once more, with `distance_t` as it is in
the program: a 64-bit signed integer (util.hpp:51). In `Verif.Core.Search` sums of distances are
natural numbers of any size. -/

namespace MM

namespace D

/-- `+` on values of type `distance_t` (`long long int`, util.hpp:51-52). `none` stands for
`max_distance`, that is `2^63 - 1`. A sum beyond it is undefined behaviour. Values are not
negative. -/
def add64 : D → D → M D
  | some a, some b =>
    if a + b < 2 ^ 63 - 1 then .ok (some (a + b))
    else if a + b = 2 ^ 63 - 1 then .ok none else .error .ub
  | none, some b => if b = 0 then .ok none else .error .ub
  | some a, none => if a = 0 then .ok none else .error .ub
  | none, none => .error .ub

end D

namespace Front

/-- `Front.expand` (pathfinder.hpp:502-512) on 64-bit distances. -/
def expand64 (P : Prob) (perm : Nat → Nat) (full : Nat → Bool) (qw : Nat → D) (z : Item)
    (F : Front) (dist : Nat → D) : M (Front × (Nat → D)) :=
  (P.qn z.node).foldlM (init := (F, dist)) fun (F, dist) p =>
    if p < P.nq then
      if F.vis p ≠ 0 then .ok (F, dist)
      else do
        let F ← setVis P F p 1
        if full p then .ok (F, upd dist p none)
        else do
          let d ← D.add64 z.dist (qw p)
          let F ← push P perm { F with par := upd F.par p (some z.node) } p d
          .ok (F, dist)
    else .error .ub

/-- `Front.run` (pathfinder.hpp:498-513) on 64-bit distances. -/
def run64 (P : Prob) (perm : Nat → Nat) (full : Nat → Bool) (qw : Nat → D) :
    Nat → Front → (Nat → D) → M (Front × (Nat → D))
  | 0, _, _ => .error .diverge
  | fuel+1, F, dist =>
    if F.pq.isEmpty then .ok (F, dist)
    else do
      let z ← F.pq.top
      let pq ← F.pq.pop
      let (F, dist) ← expand64 P perm full qw z { F with pq := pq } (upd dist z.node z.dist)
      run64 P perm full qw fuel F dist

end Front

namespace Scratch

/-- `Scratch.distancesFrom` (pathfinder.hpp:489-514) on 64-bit distances. -/
def distancesFrom64 (P : Prob) (E : Emb) (wb : Int) (qw : Nat → D) (u v : Nat) (S : Scratch) :
    M Scratch := do
  let F : Front := ⟨S.par v, prepVisited P u v, PQ.new P.nq⟩
  let (F, t) ← F.init P E v (S.perm v) (fun _ => true) qw S.tape
  let (F, dist) ← F.run64 P (S.perm v) (fun q => decide (wb ≤ E.w q)) qw (P.nq + 1) (S.dist v)
  .ok { S with par := upd S.par v F.par, vis := upd S.vis v F.vis, dist := upd S.dist v dist,
               tape := t }

/-- `Scratch.atChain` (pathfinder.hpp:307-318) on 64-bit distances. -/
def atChain64 (P : Prob) (E : Emb) (wb : Int) (qw : Nat → D) (v : Nat) (tot : Nat → D) :
    M (Nat → D) :=
  if P.fixed v then .ok tot
  else ((E.chains v).keys P.Q).foldlM (init := tot) fun tot q =>
    if q < P.nq then
      if tot q ≠ none ∧ P.reserved q = false ∧ qw q ≠ none ∧ E.w q < wb ∧ D.lt (some 0) (qw q) then do
        let d ← D.add64 (tot q) (qw q)
        .ok (upd tot q d)
      else .ok (upd tot q none)
    else .error .ub

/-- `Scratch.accum` (pathfinder.hpp:322-333) on 64-bit distances. -/
def accum64 (P : Prob) (E : Emb) (wb : Int) (vis : Nat → Int) (dist : Nat → D) (tot : Nat → D) :
    M (Nat → D) :=
  (List.range P.nq).foldlM (init := tot) fun tot q =>
    if vis q = 1 ∧ tot q ≠ none ∧ P.reserved q = false ∧ dist q ≠ none ∧ E.w q < wb then do
      let d ← D.add64 (tot q) (dist q)
      .ok (upd tot q d)
    else .ok (upd tot q none)

/-- `Scratch.rootSerial` (pathfinder.hpp:722-745) on 64-bit distances. -/
def rootSerial64 (P : Prob) (weight : Int → Int → D) (E : Emb) (wb : Int) (u : Nat) (S : Scratch) :
    M ((Nat → D) × Scratch) := do
  let mw := E.maxWeight 0 P.nq
  let qw := fun q => weight mw (E.w q)
  let (tot, n, S) ← (S.vn u).foldlM (init := (prepDistances P u, 0, S)) fun (tot, n, S) v =>
    if E.chainsize P v = 0 then .ok (tot, n, S)
    else do
      let S ← distancesFrom64 P E wb qw u v S
      let tot ← atChain64 P E wb qw v tot
      let tot ← accum64 P E wb (S.vis v) (S.dist v) tot
      .ok (tot, n + 1, S)
  .ok (if n = 0 then
      (fun q => if q < P.nq then (if wb ≤ E.w q then none else dmax (qw q) (tot q)) else tot q)
    else tot, S)

/-- `Scratch.rootParallel` (pathfinder.hpp:827-856) on 64-bit distances. -/
def rootParallel64 (P : Prob) (weight : Int → Int → D) (E : Emb) (wb : Int) (u : Nat) (S : Scratch) :
    M ((Nat → D) × Scratch) := do
  let mw := E.maxWeight 0 P.nq
  let qw := fun q => weight mw (E.w q)
  let (n, S) ← (S.vn u).foldlM (init := (0, S)) fun (n, S) v =>
    if E.chainsize P v = 0 then .ok (n, S)
    else do
      let S ← distancesFrom64 P E wb qw u v S
      .ok (n + 1, S)
  let tot ← (S.vn u).foldlM (init := prepDistances P u) fun tot v => atChain64 P E wb qw v tot
  let tot ← (S.vn u).foldlM (init := tot) fun tot v =>
    if E.chainsize P v = 0 then .ok tot else accum64 P E wb (S.vis v) (S.dist v) tot
  .ok (if n = 0 then
      (fun q => if q < P.nq then (if wb ≤ E.w q then none else tot q) else tot q)
    else tot, S)

/-- `Scratch.findChain` (pathfinder.hpp:347-371) on 64-bit distances. -/
def findChain64 (P : Prob) (C : Cfg) (wb : Int) (cs : Nat) (u : Nat) (E : Emb) (S : Scratch) :
    M (Emb × Scratch × Bool) := do
  let S ← mixQueues P u S
  let (tot, S) ← (if C.par then rootParallel64 P C.weight E wb u S
    else rootSerial64 P C.weight E wb u S : M ((Nat → D) × Scratch))
  let mins ← collectMinima P.nq tot
  let (i, t) := pick mins.length S.tape
  match mins[i]? with
  | none => .error .ub
  | some q0 =>
    if tot q0 = none then .ok (E, { S with tape := t }, false)
    else do
      let (E, t) ← E.constructSteiner P (S.vn u) u q0 S.par S.dist S.vis t
      let E ← E.flipBack P (S.vn u) u cs
      .ok (E, { S with tape := t }, true)

end Scratch
end MM
