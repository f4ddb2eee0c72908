import Verif.Core.Totals
import Verif.Core.Order
import Verif.Par.Jobs
import Verif.Props.State
import Mathlib.Data.List.Nodup
import Verif.Par.Chunks

/-! C12–C18: the queue, the distances, the roots, the orders, and the parallel search. -/

namespace MM

open Scratch (Cfg)
open Spec (IsDist PathCost Follows)

/-! ### C12 -/

/-- What can be done with a queue. -/
inductive QOp where
  | push (x : Item)
  /-- `top` and `pop` -/
  | pop
  | reset

/-- Doing it; the items popped are returned in order. -/
def PQ.exec (q : PQ) : List QOp → M (PQ × List Item)
  | [] => .ok (q, [])
  | .push x :: ops => do
    let q ← q.emplace x
    q.exec ops
  | .pop :: ops => do
    let x ← q.top
    let q ← q.pop
    let (q, out) ← q.exec ops
    .ok (q, x :: out)
  | .reset :: ops => q.reset.exec ops

/-- `y` must leave before `x`: it is nearer, or as near and first by the tie-break. -/
def Spec.Before (y x : Item) : Prop := D.lt y.dist x.dist = true ∨ (y.dist = x.dist ∧ y.dirt < x.dirt)

/-- The same on a multiset `m`, given as a list in any order: `out` are the items popped,
`m'` what remains. -/
inductive Spec.Sorted : List Item → List QOp → List Item → List Item → Prop
  | done {m m'} : m.Perm m' → Spec.Sorted m [] [] m'
  | push {m x ops out m'} : Spec.Sorted (x :: m) ops out m' → Spec.Sorted m (.push x :: ops) out m'
  | pop {m m1 x ops out m'} : m.Perm (x :: m1) → (∀ y ∈ m, ¬ Spec.Before y x) → Spec.Sorted m1 ops out m' →
      Spec.Sorted m (.pop :: ops) (x :: out) m'
  | reset {m ops out m'} : Spec.Sorted [] ops out m' → Spec.Sorted m (.reset :: ops) out m'

/-- Nothing is popped from an empty queue, and at most `cap` items are pushed between two
resets; `used` have been pushed, `size` are queued. -/
def Spec.Fits (cap : Nat) : Nat → Nat → List QOp → Prop
  | _, _, [] => True
  | used, size, .push _ :: ops => used < cap ∧ Spec.Fits cap (used + 1) (size + 1) ops
  | used, size, .pop :: ops => 0 < size ∧ Spec.Fits cap used (size - 1) ops
  | _, _, .reset :: ops => Spec.Fits cap 0 0 ops

theorem Item.le_before {x y : Item} (h : Item.le x y) : ¬ Spec.Before y x := by
  intro hb
  have : Item.less x y = true := by
    rw [Item.less_def]
    rcases hb with h | ⟨h1, h2⟩
    · exact Or.inl h
    · exact Or.inr ⟨h1.symm, h2⟩
  unfold Item.le at h; rw [h] at this; simp at this

theorem Spec.Sorted.perm {m n : List Item} {ops : List QOp} {out m' : List Item} (h : Spec.Sorted m ops out m')
    (hp : m.Perm n) : Spec.Sorted n ops out m' := by
  induction h generalizing n with
  | done h => exact .done (hp.symm.trans h)
  | push _ ih => exact .push (ih (hp.cons _))
  | pop h1 h2 h3 => exact .pop (hp.symm.trans h1) (fun y hy => h2 y (hp.mem_iff.2 hy)) h3
  | reset h => exact .reset h

theorem exec_sorted : ∀ (ops : List QOp) (q : PQ), q.Inv →
    (Spec.Fits q.cap q.count q.items.length ops →
      ∃ q' out, q.exec ops = .ok (q', out) ∧ q'.Inv ∧ Spec.Sorted q.items ops out q'.items) ∧
    (¬ Spec.Fits q.cap q.count q.items.length ops → q.exec ops = .error .ub) := by
  intro ops
  induction ops with
  | nil => intro q hq; exact ⟨fun _ => ⟨q, [], rfl, hq, .done (List.Perm.refl _)⟩, fun h => absurd trivial h⟩
  | cons o ops ih =>
    intro q hq
    cases o with
    | push x =>
      unfold PQ.exec Spec.Fits
      by_cases hc : q.count < q.cap
      · obtain ⟨q1, e1, i1, p1, c1, k1⟩ := PQ.emplace_spec hq (x := x) hc
        have hl : q1.items.length = q.items.length + 1 := by rw [p1.length_eq]; rfl
        obtain ⟨a, b⟩ := ih q1 i1
        rw [k1, c1, hl] at a b
        rw [e1]
        constructor
        · rintro ⟨_, hf⟩
          obtain ⟨q', out, e, i, s⟩ := a hf
          exact ⟨q', out, e, i, .push (s.perm p1)⟩
        · intro hf
          exact b fun hc' => hf ⟨hc, hc'⟩
      · refine ⟨fun h => absurd h.1 hc, fun _ => ?_⟩
        unfold PQ.emplace; rw [if_neg hc]; rfl
    | pop =>
      unfold PQ.exec Spec.Fits
      cases he : q.isEmpty with
      | true =>
        have h0 := PQ.isEmpty_iff.1 he
        refine ⟨fun h => ?_, fun _ => ?_⟩
        · rw [h0] at h; simp at h
        · unfold PQ.isEmpty at he
          unfold PQ.top
          cases hr : q.root with
          | nil => rfl
          | node => rw [hr] at he; simp at he
      | false =>
        obtain ⟨x, q1, t1, o1, i1, p1, l1, c1, k1⟩ := PQ.pop_spec hq he
        have hl : q.items.length = q1.items.length + 1 := by rw [p1.length_eq]; rfl
        obtain ⟨a, b⟩ := ih q1 i1
        rw [k1, c1] at a b
        rw [t1, o1, hl]
        simp only [bind, Except.bind, Nat.add_sub_cancel]
        constructor
        · rintro ⟨_, hf⟩
          obtain ⟨q', out, e, i, s⟩ := a hf
          rw [e]
          exact ⟨q', x :: out, rfl, i, .pop p1 (fun y hy => Item.le_before (l1 y hy)) s⟩
        · intro hf
          rw [b fun hc' => hf ⟨by omega, hc'⟩]
    | reset =>
      unfold PQ.exec Spec.Fits
      obtain ⟨a, b⟩ := ih q.reset (PQ.reset_inv q)
      have hl : q.reset.items.length = 0 := rfl
      have h1 : q.reset.cap = q.cap := rfl
      have h2 : q.reset.count = 0 := rfl
      rw [hl, h1, h2] at a b
      refine ⟨fun hf => ?_, b⟩
      obtain ⟨q', out, e, i, s⟩ := a hf
      exact ⟨q', out, e, i, .reset s⟩

/-- **C12.** Any sequence of insertions, removals and resets that never removes from an empty
queue and never inserts more than `n` items between resets behaves like a sorted multiset;
the queue says it is empty exactly when the multiset is. Every other sequence ends in
undefined behaviour. -/
theorem C12_sorted_multiset (n : Nat) (ops : List QOp) :
    (Spec.Fits n 0 0 ops → ∃ q out m', (PQ.new n).exec ops = .ok (q, out) ∧ Spec.Sorted [] ops out m' ∧
      (q.isEmpty = true ↔ m' = [])) ∧
    (¬ Spec.Fits n 0 0 ops → (PQ.new n).exec ops = .error .ub) := by
  obtain ⟨a, b⟩ := exec_sorted ops (PQ.new n) (PQ.new_inv n)
  refine ⟨fun hf => ?_, b⟩
  obtain ⟨q, out, e, _, s⟩ := a hf
  exact ⟨q, out, q.items, e, s, PQ.isEmpty_iff⟩

namespace Demo

def ops : List QOp := [.push ⟨7, 0, some 5⟩, .push ⟨8, 1, some 3⟩, .push ⟨9, 0, some 3⟩, .pop, .push ⟨5, 2, none⟩,
  .pop, .pop, .pop]

theorem ops_fit : Spec.Fits 4 0 0 ops := by simp [ops, Spec.Fits]

end Demo

example : ∃ q out m', (PQ.new 4).exec Demo.ops = .ok (q, out) ∧ Spec.Sorted [] Demo.ops out m' ∧
    (q.isEmpty = true ↔ m' = []) := (C12_sorted_multiset 4 Demo.ops).1 Demo.ops_fit

example : (match (PQ.new 4).exec Demo.ops with
    | .ok (_, out) => out.map Item.node
    | .error _ => []) = [9, 8, 7, 5] := by decide +kernel

example : (match (PQ.new 3).exec Demo.ops with
    | .ok _ => false
    | .error e => decide (e = .ub)) = true := by decide +kernel

/-! ### C13 -/

variable {P : Prob} {R : Nat → Nat → Prop} {C : Cfg} {E : Emb}

/-- **C13.** In every embedding that arises, every search from the chain of a variable stays
within the storage of its queue, and inserts no more items than qubits it marks as visited;
so do the searches of the short-chain heuristic. -/
theorem C13_queue_never_overflows (wf : P.WF) (hR : Dom P R) (he : P.Even) (h : Arises P R C E) :
    (∀ (u v : Nat) (wb : Int) (qw : Nat → D) (S : Scratch), v < P.N →
      ∃ F t F' dist,
        Front.init P E v (S.perm v) (fun _ => true) qw ⟨S.par v, Scratch.prepVisited P u v, PQ.new P.nq⟩ S.tape
          = .ok (F, t) ∧
        Front.run P (S.perm v) (fun q => decide (wb ≤ E.w q)) qw (P.nq + 1) F (S.dist v) = .ok (F', dist) ∧
        F'.pq.count ≤ ((List.range P.nq).filter fun p => decide (F'.vis p = 1)).length ∧
        ∃ S', Scratch.distancesFrom P E wb qw u v S = .ok S') ∧
    (∀ (u cs : Nat) (S : Scratch), u < P.nv → VnOK P S →
      (∀ v ∈ P.vn u, (∃ q, (E.chains v).has q = true) → ((E.chains u).links v).isSome = true) →
      ∃ r, Scratch.findShort P cs u E S = .ok r) := by
  have hE := h.inv wf hR he
  constructor
  · intro u v wb qw S hv
    obtain ⟨⟨F, t⟩, h1, i1, i2⟩ := init_spec (A := fun _ => True) (B := fun p => S.dist v p = none) wf hR hE hv
      (vis0 := Scratch.prepVisited P u v) (perm := S.perm v) (use := fun _ => true) (d := qw) (par := S.par v)
      (t := S.tape) (prepVisited_ne u v) (fun _ _ _ _ _ => trivial)
    dsimp only at i1 i2
    obtain ⟨⟨F', d⟩, h2, j1⟩ := run_spec (perm := S.perm v) (full := fun q => decide (wb ≤ E.w q)) (qw := qw) wf
      (P.nq + 1) i1 i2 (fun _ _ _ _ => trivial) (by have := i1.inv.cnt; omega)
    refine ⟨F, t, F', d, h1, h2, ?_, ?_⟩
    · have := j1.cnt
      rw [cnt_eq_countP, List.countP_eq_length_filter] at this
      exact this
    · unfold Scratch.distancesFrom
      dsimp only
      rw [h1]; simp only [bind, Except.bind]; rw [h2]
      exact ⟨_, rfl⟩
  · intro u cs S hu hS hl
    obtain ⟨r, hr, _⟩ := findShort_spec (cs := cs) wf hR he hu hE hS hl
    exact ⟨r, hr⟩

/-! ### C14 -/

/-- **C14.** In every embedding that arises, after a search from the chain of `v` the recorded
distance of each free qubit (no distance, if the qubit was not reached) is the least cost of
a path from the chain to it, and following the recorded parents leads back to the chain at
that cost. A path may enter free qubits that one of the two variables may use and that are
not full; a first step out of a fixed chain may also enter a full one. -/
theorem C14_distances_shortest (wf : P.WF) (hR : Dom P R) (he : P.Even) (h : Arises P R C E) {u v : Nat}
    (hv : v < P.N) {wb : Int} {qw : Nat → D} {S : Scratch} :
    ∃ S', Scratch.distancesFrom P E wb qw u v S = .ok S' ∧ ∀ q, q < P.nq →
      let inChain : Nat → Prop := fun x => x ∈ (E.chains v).keys P.Q
      let step : Nat → Nat → Prop := fun a b => b < P.nq ∧ (P.accepts u b = true ∨ P.accepts v b = true) ∧
        (E.w b < wb ∨ (P.nv ≤ v ∧ inChain a))
      let d := if S'.vis v q = 1 then S'.dist v q else none
      IsDist (fun a b => b ∈ P.qn a) inChain step qw q d ∧
        (d ≠ none → Follows (fun a b => b ∈ P.qn a) inChain step qw (S'.par v) q d) := by
  have hE := h.inv wf hR he
  obtain ⟨S', hS'⟩ := ((C13_queue_never_overflows wf hR he h).1 u v wb qw S hv).imp
    (fun _ h => h) |>.choose_spec.choose_spec.choose_spec.choose_spec.2.2.2
  refine ⟨S', hS', ?_⟩
  intro q hq
  have hk := distancesFrom_shortest wf hR hE hv hS' hq
  have e1 : (fun x => (E.chains v).has x = true) = fun x => x ∈ (E.chains v).keys P.Q := by
    funext x
    rw [Chain.mem_keys]
    exact propext ⟨fun k => ⟨(hE.cinv v hv).has_lt k, k⟩, fun k => k.2⟩
  have e2 : StepOK P (fun x => (E.chains v).has x = true) (Scratch.prepVisited P u v)
      (fun q => decide (wb ≤ E.w q)) (P.fixed v) = fun a b => b < P.nq ∧ (P.accepts u b = true ∨ P.accepts v b = true) ∧
        (E.w b < wb ∨ (P.nv ≤ v ∧ a ∈ (E.chains v).keys P.Q)) := by
    funext a b
    unfold StepOK Scratch.prepVisited
    have : (a ∈ (E.chains v).keys P.Q) = ((E.chains v).has a = true) := congrFun e1.symm a
    rw [this]
    apply propext
    simp only [Prob.fixed, decide_eq_true_eq, decide_eq_false_iff_not, Int.not_le, Bool.or_eq_true]
    constructor
    · rintro ⟨a1, a2, a3⟩
      refine ⟨a1, ?_, a3⟩
      by_contra hc
      rw [if_neg hc] at a2; omega
    · rintro ⟨a1, a2, a3⟩
      exact ⟨a1, by rw [if_pos a2], a3⟩
  unfold Adj at hk
  rw [e2, e1] at hk
  exact ⟨⟨hk.1, fun hne => (hk.2 hne).path⟩, hk.2⟩

namespace Demo

/-- Distances on the path of four qubits from the chain on qubits 1 and 2, computed. -/
theorem dist0 : (match Emb.construct P0 init0 tape0 with
    | .ok (E0, _) => (match Scratch.distancesFrom P0 (Emb.copy P0 Emb.empty E0) 5 (fun q => some (q + 2)) 0 1
        ⟨P0.vn, fun _ _ => none, fun _ _ => 0, fun _ _ => none, fun _ q => q, tape0⟩ with
      | .ok S' => decide ((List.range 4).map (S'.dist 1) = [some 2, some 0, some 0, some 5] ∧
          (List.range 4).map (S'.par 1) = [some 1, none, none, some 2])
      | .error _ => false)
    | .error _ => false) = true := by decide +kernel

end Demo

example : ∃ E, Arises Demo.P0 Demo.R0 Demo.cfg E ∧ ∃ S', Scratch.distancesFrom Demo.P0 E 5 (fun q => some (q + 2)) 0 1
    ⟨Demo.P0.vn, fun _ _ => none, fun _ _ => 0, fun _ _ => none, fun _ q => q, Demo.tape0⟩ = .ok S' :=
  let ⟨E0, _, _, h⟩ := Demo.arises0
  ⟨Emb.copy Demo.P0 Emb.empty E0, h,
    (C14_distances_shortest Demo.P0_wf Demo.P0_dom Demo.P0_even h (v := 1) (by decide)).imp fun _ h => h.1⟩

/-! ### C15 -/

/-- **C15.** The list the root is drawn from has each index with the least total distance
exactly once, and no other; it is never empty. -/
theorem C15_minima_exact {n : Nat} (hn : 0 < n) (tot : Nat → D) :
    ∃ l, Scratch.collectMinima n tot = .ok l ∧ l.Nodup ∧ l ≠ [] ∧
      ∀ i, i ∈ l ↔ i < n ∧ ∀ j, j < n → D.lt (tot j) (tot i) = false := by
  obtain ⟨l, h1, h2, h3⟩ := collectMinima_eq hn tot
  refine ⟨l, h1, ?_, h3, ?_⟩
  · rw [h2]; exact List.nodup_range.sublist List.filter_sublist
  · intro i
    rw [h2, List.mem_filter]
    simp

example : (Scratch.collectMinima 4 (fun i => if i = 0 then none else if i = 2 then some 9 else some 4)).toOption =
    some [1, 3] := by decide +kernel

/-! ### C16 -/

/-- **C16.** Whatever the random draws, and in whatever order the neighbours are listed, each
strategy returns an order with every free variable exactly once; keeping the order keeps
it. -/
theorem C16_orders_are_permutations (wf : P.WF) (o : VarOrder) {S : Scratch} (hS : VnOK P S) (old : List Nat)
    (t : Tape) :
    ∃ l t', varOrder P o S.vn old t = .ok (l, t') ∧ (o ≠ .keep → l.Perm (List.range P.nv)) ∧ (o = .keep → l = old) := by
  obtain ⟨⟨l, t'⟩, h1, h2⟩ := varOrder_spec (P := P) (o := o) (vn := S.vn) (old := old) (t := t)
    (fun v hv y hy => wf.vn_lt v y hv ((hS v hv).mem_iff.1 hy))
  exact ⟨l, t', h1, h2⟩

namespace Demo

/-- Four variables, two components, one of them attached to a fixed variable. -/
def P1 : Prob :=
  { nv := 4, nf := 1, nq := 4, nr := 1
    qn := fun _ => []
    vn := fun v => if v = 0 then [1, 4] else if v = 1 then [0] else if v = 2 then [3] else [2]
    accepts := fun _ _ => true, fixedChain := fun _ => [4] }

def S1 : Scratch := ⟨P1.vn, fun _ _ => none, fun _ _ => 0, fun _ _ => none, fun _ q => q, tape0⟩

end Demo

example : [VarOrder.shuffle, .dfs, .bfs, .pfs, .rpfs].map (fun o =>
    (varOrder Demo.P1 o Demo.P1.vn [] (fun n => n)).toOption.map fun r => r.1.isPerm [0, 1, 2, 3]) =
    [some true, some true, some true, some true, some true] := by decide +kernel

/-! ### C17 -/

namespace Par

variable {vn : List Nat} {has : Nat → Bool} {k : Nat} {J : Jobs}

theorem mem_heldBy {pc : Nat → PC} {i v : Nat} (hi : i < k) (h : pc i = .work v) : v ∈ heldBy k pc :=
  List.mem_flatMap.2 ⟨i, List.mem_range.2 hi, by rw [h]; simp [PC.held]⟩

end Par

open Par in
/-- **C17, handing out.** With any number of workers and under any schedule: at most one
worker holds the lock; two workers never search from the same neighbour, nor from one whose
search is finished; only neighbours with chains are searched from. -/
theorem C17_exclusive {vn : List Nat} (hnd : vn.Nodup) {has : Nat → Bool} {k : Nat} {J : Jobs}
    (h : Reached vn has k J) :
    (∀ i j, J.pc i = .scan → J.pc j = .scan → i = j) ∧
    (∀ i j v, J.pc i = .work v → J.pc j = .work v → i = j) ∧
    (∀ i v, J.pc i = .work v → (v ∈ vn ∧ has v = true) ∧ v ∉ J.log.map Prod.fst) ∧
    (J.log.map Prod.fst).Nodup ∧ ∀ v ∈ J.log.map Prod.fst, v ∈ vn ∧ has v = true := by
  have hI := h.inv
  have hnd' : (J.log.map Prod.fst ++ heldBy k J.pc).Nodup :=
    hI.given.nodup_iff.2 ((hnd.sublist (List.take_sublist _ _)).sublist List.filter_sublist)
  have sub : ∀ v ∈ J.log.map Prod.fst ++ heldBy k J.pc, v ∈ vn ∧ has v = true := by
    intro v hv
    obtain ⟨a, b⟩ := List.mem_filter.1 (hI.given.mem_iff.1 hv)
    exact ⟨List.mem_of_mem_take a, b⟩
  have lt : ∀ i v, J.pc i = .work v → i < k := by
    intro i v hp
    by_contra hc
    rw [hI.idle i (by omega)] at hp; simp at hp
  refine ⟨?_, ?_, ?_, (List.nodup_append.1 hnd').1, fun v hv => sub v (List.mem_append_left _ hv)⟩
  · intro i j hi hj
    have a := (hI.lock i).2 (Or.inl hi)
    have b := (hI.lock j).2 (Or.inl hj)
    rw [a] at b; simpa using b
  · intro i j v hi hj
    have hn := (List.nodup_append.1 hnd').2.1
    unfold heldBy at hn
    rw [List.nodup_flatMap] at hn
    by_contra hne
    have key : ∀ a b, a < k → b < k → a < b → J.pc a = .work v → J.pc b = .work v → False := by
      intro a b ha hb hab pa pb
      have := List.pairwise_iff_getElem.1 hn.2 a b (by simpa using ha) (by simpa using hb) hab
      simp only [List.getElem_range, Function.onFun, pa, pb, PC.held] at this
      simp at this
    rcases Nat.lt_or_gt_of_ne hne with hl | hl
    · exact key i j (lt i v hi) (lt j v hj) hl hi hj
    · exact key j i (lt j v hj) (lt i v hi) hl hj hi
  · intro i v hp
    have hm := mem_heldBy (lt i v hp) hp
    refine ⟨sub v (List.mem_append_right _ hm), ?_⟩
    intro hc
    exact (List.nodup_append.1 hnd').2.2 v hc v hm rfl

open Par in
/-- **C17, finishing.** No schedule goes on forever; none gets stuck while a worker has not
returned; and when all have, each neighbour with a chain was searched from exactly once and
the count of such neighbours is right. -/
theorem C17_exactly_once (vn : List Nat) (has : Nat → Bool) {k : Nat} (hk : 0 < k) :
    (¬ ∃ f : Nat → Jobs, ∀ n, ∃ i, i < k ∧ Step vn has i (f n) (f (n+1))) ∧
    (∀ J, Reached vn has k J → (∃ i, i < k ∧ J.pc i ≠ .done) → ∃ i J', i < k ∧ Step vn has i J J') ∧
    (∀ J, Reached vn has k J → (∀ i, i < k → J.pc i = .done) →
      (J.log.map Prod.fst).Perm (vn.filter has) ∧ J.emb = (vn.filter has).length) := by
  refine ⟨?_, fun J h ⟨i, hi, hd⟩ => h.progress hi hd, ?_⟩
  · rintro ⟨f, hf⟩
    have : ∀ m n, (f n).measure vn k ≠ m := by
      intro m
      induction m using Nat.strong_induction_on with
      | _ m ih =>
        intro n hn
        obtain ⟨i, hi, hs⟩ := hf n
        exact ih _ (hn ▸ hs.decreases hi) (n+1) rfl
    exact this _ 0 rfl
  · intro J h hd
    have hI := h.inv
    have hfin := hI.fin 0 (Or.inr (hd 0 hk))
    have h0 : heldBy k J.pc = [] := by
      unfold heldBy
      rw [List.flatMap_eq_nil_iff]
      intro i hi
      rw [hd i (List.mem_range.1 hi)]; rfl
    have hg := hI.given
    have he := hI.emb
    rw [h0, List.append_nil, hfin, List.take_length] at hg
    rw [hfin, List.take_length] at he
    exact ⟨hg, he⟩

/-- A path of steps, for the example. -/
theorem Par.Reached.go {vn : List Nat} {has : Nat → Bool} {k : Nat} {J J' : Par.Jobs} (i : Nat) (h : Par.Reached vn has k J)
    (hi : i < k) (hs : Par.Step vn has i J J') : Par.Reached vn has k J' := .step h hi hs

/-- Two workers: worker 1 takes neighbour 3, worker 0 skips 4 and takes 5 meanwhile. -/
example : ∃ J, Par.Reached [3, 4, 5] (fun v => decide (v ≠ 4)) 2 J ∧ J.pc 1 = .work 3 ∧ J.pc 0 = .work 5 := by
  have h := Par.Reached.init (vn := [3, 4, 5]) (has := fun v => decide (v ≠ 4)) (k := 2)
  have h := h.go 1 (by decide) (.lock rfl rfl)
  have h := h.go 1 (by decide) (.take (v := 3) rfl rfl rfl)
  have h := h.go 1 (by decide) (.start (v := 3) rfl)
  have h := h.go 0 (by decide) (.lock rfl rfl)
  have h := h.go 0 (by decide) (.skip (v := 4) rfl rfl rfl)
  have h := h.go 0 (by decide) (.take (v := 5) rfl rfl rfl)
  have h := h.go 0 (by decide) (.start (v := 5) rfl)
  exact ⟨_, h, rfl, rfl⟩

/-- **C17, chunks.** With `k` workers on `n` qubits, `0 < k ≤ n`: there are `k` chunks, none is
empty, every qubit is in exactly one, and the largest of the chunks' largest fills is the
largest fill. -/
theorem C17_chunks_partition {n k : Nat} (hk : 0 < k) (hkn : k ≤ n) :
    (Par.chunks n k).length = k ∧ (∀ c ∈ Par.chunks n k, c.1 < c.2 ∧ c.2 ≤ n) ∧
    (∀ q, q < n → ((Par.chunks n k).filter fun c => decide (c.1 ≤ q ∧ q < c.2)).length = 1) ∧
    ∀ (E : Emb) (M : Int), M ∈ (Par.chunks n k).map (fun c => E.maxWeight c.1 c.2) →
      (∀ x ∈ (Par.chunks n k).map (fun c => E.maxWeight c.1 c.2), x ≤ M) → M = E.maxWeight 0 n := by
  have hcov := chunks_cover (n := n) hk
  have hpos : ∀ c ∈ Par.chunks n k, c.1 < c.2 := chunkLoop_pos _ _ _ (Nat.div_pos hkn hk)
  have hle : ∀ c ∈ Par.chunks n k, c.2 ≤ n := by
    intro c hc
    have hp := hpos c hc
    have : c.2 - 1 ∈ List.range' 0 n := by
      rw [← hcov]
      exact List.mem_flatMap.2 ⟨c, hc, List.mem_range'_1.2 (by omega)⟩
    have := (List.mem_range'_1.1 this).2
    omega
  refine ⟨Par.chunkLoop_length _ _ _ _, fun c hc => ⟨hpos c hc, hle c hc⟩, ?_, ?_⟩
  · intro q hq
    have h1 : (List.range' 0 n).count q = 1 :=
      List.count_eq_one_of_mem List.nodup_range' (List.mem_range'_1.2 (by omega))
    rw [← hcov] at h1
    have : ∀ l : List (Nat × Nat), (l.flatMap (fun c => List.range' c.1 (c.2 - c.1))).count q =
        (l.filter fun c => decide (c.1 ≤ q ∧ q < c.2)).length := by
      intro l
      induction l with
      | nil => rfl
      | cons c l ih =>
        rw [List.flatMap_cons, List.count_append, ih]
        by_cases hc : c.1 ≤ q ∧ q < c.2
        · rw [List.filter_cons_of_pos (by simpa using hc), List.length_cons,
            List.count_eq_one_of_mem List.nodup_range' (List.mem_range'_1.2 (by omega))]
          omega
        · rw [List.filter_cons_of_neg (by simpa using hc), List.count_eq_zero_of_not_mem, Nat.zero_add]
          intro hm
          have := List.mem_range'_1.1 hm
          omega
    rw [this] at h1; exact h1
  · exact fun E M hM hmax => chunks_max hk hkn E hM hmax

example : Par.chunks 11 4 = [(0, 3), (3, 6), (6, 9), (9, 11)] := by decide

/-! ### C18 -/

/-- **C18, partial.** In every embedding that arises, if some neighbour of `u` has a chain, the
serial and the parallel pathfinder compute the same total distances, whatever each has in its
scratch memory, in whatever order each goes through the neighbours and chains, and whatever
the tie-breaks; so they draw the root from the same list. Missing from the full statement:
the case in which no neighbour has a chain, where it is false (`C18_fails_without_neighbours`). -/
theorem C18_serial_parallel_partial (wf : P.WF) (hR : Dom P R) (he : P.Even) (h : Arises P R C E)
    {weight : Int → Int → D} {wb : Int} {u : Nat} (hu : u < P.nv) {S1 S2 : Scratch} (h1 : VnOK P S1) (h2 : VnOK P S2)
    (hn : ∃ v ∈ P.vn u, ∃ q, q ∈ (E.chains v).keys P.Q) :
    ∃ tot1 S1' tot2 S2', Scratch.rootSerial P weight E wb u S1 = .ok (tot1, S1') ∧
      Scratch.rootParallel P weight E wb u S2 = .ok (tot2, S2') ∧ (∀ q, q < P.nq → tot1 q = tot2 q) ∧
      Scratch.collectMinima P.nq tot1 = Scratch.collectMinima P.nq tot2 := by
  have hE := h.inv wf hR he
  obtain ⟨⟨t1, S1'⟩, r1, _⟩ := rootSerial_spec (wb := wb) (weight := weight) wf hR hE hu h1
  obtain ⟨⟨t2, S2'⟩, r2, _⟩ := rootParallel_spec (wb := wb) (weight := weight) wf hR hE hu h2
  have hn' : ∃ v ∈ P.vn u, E.chainsize P v ≠ 0 := by
    obtain ⟨v, hv, q, hq⟩ := hn
    exact ⟨v, hv, (hE.size_iff (wf.vn_lt u v hu hv)).2 ⟨q, (Chain.mem_keys.1 hq).2⟩⟩
  have e : ∀ q, q < P.nq → t1 q = t2 q := fun q hq =>
    (rootSerial_sum wf hR hE hu h1 r1 hn').unique (rootParallel_sum wf hR hE hu h2 r2 hn')
      ((h1 u hu).trans (h2 u hu).symm) hq
  refine ⟨t1, S1', t2, S2', r1, r2, e, ?_⟩
  obtain ⟨l1, m1, k1, _⟩ := collectMinima_eq wf.nq_pos t1
  obtain ⟨l2, m2, k2, _⟩ := collectMinima_eq wf.nq_pos t2
  rw [m1, m2, k1, k2]
  congr 1
  apply List.filter_congr
  intro i hi
  rw [Bool.eq_iff_iff, List.all_eq_true, List.all_eq_true]
  refine forall_congr' fun j => imp_congr_right fun hj => ?_
  rw [e i (List.mem_range.1 hi), e j (List.mem_range.1 hj)]

namespace Demo

/-- Two unrelated variables on a path of four qubits. -/
def P2 : Prob := { P0 with vn := fun _ => [] }

theorem P2_wf : P2.WF := by
  have hw := P0_wf
  have hv : P2.nv = 2 := rfl
  refine ⟨hw.nq_pos, hw.qn_lt, ?_, ?_, ?_, ?_, hw.7, hw.8, hw.9, hw.10⟩ <;> intros <;> simp_all [P2]

theorem P2_dom : Dom P2 R0 := ⟨fun _ _ _ h => h, fun _ _ _ _ _ _ h _ => h, fun _ _ _ h _ => h, fun _ _ _ _ _ h _ => h⟩

theorem P2_even : P2.Even := fun _ _ _ _ _ _ _ _ _ => Or.inl rfl

theorem init2_ok : InitOK P2 R0 [(0, [0, 1])] := by
  refine ⟨by decide, by decide, ?_, by decide⟩
  show ∀ x ∈ [(0, [0, 1])], ∀ q ∈ x.2, q < 4
  decide

def S2 : Scratch := ⟨P2.vn, fun _ _ => none, fun _ _ => 0, fun _ _ => none, fun _ q => q, tape0⟩

/-- The two lists of roots, computed. -/
def roots (E : Emb) : Option (List Nat) × Option (List Nat) :=
  (((Scratch.rootSerial P2 cfg.weight E 5 1 S2).bind fun r => Scratch.collectMinima 4 r.1).toOption,
   ((Scratch.rootParallel P2 cfg.weight E 5 1 S2).bind fun r => Scratch.collectMinima 4 r.1).toOption)

theorem roots2 : (match Emb.construct P2 [(0, [0, 1])] tape0 with
    | .ok (E0, _) => decide (roots (Emb.copy P2 Emb.empty E0) = (some [2, 3], some [0, 1, 2, 3]))
    | .error _ => false) = true := by decide +kernel

end Demo

/-- **C18, the full statement is false.** With no neighbour embedded the serial pathfinder
weighs each qubit by its fill, the parallel one only excludes the full ones: with one chain
on qubits 0 and 1 of a path of four, the serial pathfinder draws the root of another variable
from 2 and 3, the parallel one from all four qubits. -/
theorem C18_fails_without_neighbours :
    ∃ (P : Prob) (E : Emb), P.WF ∧ P.Even ∧ Arises P Demo.R0 Demo.cfg E ∧
      ∃ (S : Scratch), VnOK P S ∧
      ((Scratch.rootSerial P Demo.cfg.weight E 5 1 S).bind fun r => Scratch.collectMinima P.nq r.1).toOption =
        some [2, 3] ∧
      ((Scratch.rootParallel P Demo.cfg.weight E 5 1 S).bind fun r => Scratch.collectMinima P.nq r.1).toOption =
        some [0, 1, 2, 3] := by
  have hd := Demo.roots2
  obtain ⟨⟨E0, t'⟩, h, _⟩ := construct_shape Demo.P2_wf Demo.P2_dom (t := Demo.tape0) Demo.init2_ok
  rw [h] at hd
  have hd := of_decide_eq_true hd
  exact ⟨Demo.P2, _, Demo.P2_wf, Demo.P2_even, .load Demo.init2_ok h, Demo.S2, fun _ _ => List.Perm.refl _,
    congrArg Prod.fst hd, congrArg Prod.snd hd⟩

example : ∃ E, Arises Demo.P0 Demo.R0 Demo.cfg E ∧ ∃ tot1 S1' tot2 S2',
    Scratch.rootSerial Demo.P0 Demo.cfg.weight E 5 0 ⟨Demo.P0.vn, fun _ _ => none, fun _ _ => 0, fun _ _ => none,
      fun _ q => q, Demo.tape0⟩ = .ok (tot1, S1') ∧
    Scratch.rootParallel Demo.P0 Demo.cfg.weight E 5 0 ⟨Demo.P0.vn, fun _ _ => none, fun _ _ => 7, fun _ _ => some 3,
      fun _ q => 4 - q, fun n => n⟩ = .ok (tot2, S2') ∧ ∀ q, q < 4 → tot1 q = tot2 q := by
  obtain ⟨E0, t', hc, h⟩ := Demo.arises0
  have hne : (match Emb.construct Demo.P0 Demo.init0 Demo.tape0 with
    | .ok (E0, _) => decide (1 ∈ ((Emb.copy Demo.P0 Emb.empty E0).chains 1).keys 4)
    | .error _ => false) = true := by decide +kernel
  rw [hc] at hne
  obtain ⟨a, b, c, d, e, f, g, _⟩ := C18_serial_parallel_partial Demo.P0_wf Demo.P0_dom Demo.P0_even h
    (weight := Demo.cfg.weight) (wb := 5) (u := 0) (by decide)
    (S1 := ⟨Demo.P0.vn, fun _ _ => none, fun _ _ => 0, fun _ _ => none, fun _ q => q, Demo.tape0⟩)
    (S2 := ⟨Demo.P0.vn, fun _ _ => none, fun _ _ => 7, fun _ _ => some 3, fun _ q => 4 - q, fun n => n⟩)
    (fun _ _ => List.Perm.refl _) (fun _ _ => List.Perm.refl _) ⟨1, by decide, 1, of_decide_eq_true hne⟩
  exact ⟨_, h, a, b, c, d, e, f, g⟩

end MM
