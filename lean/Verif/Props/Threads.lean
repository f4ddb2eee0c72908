import Verif.Par.CallInv
import Verif.Props.Search

/-! ## C114: threads

What a search with several threads leaves in memory does not depend on how the threads are
scheduled, nor on how many there are. -/

namespace MM
open Par

/-- Once started, a call goes on with some steps. -/
inductive Par.Call.Goes (C : Call) : Stage → Stage → Prop
  | refl (X) : C.Goes X X
  | step {X Y Z} : C.Step X Y → C.Goes Y Z → C.Goes X Z

/-- A call in a state that arises: `u` is a variable to be embedded, there are at least one thread
and at most as many as qubits, and iterating over a chain gives its qubits in some order. -/
structure Par.Call.Arises (C : Call) (R : Nat → Nat → Prop) (G : Scratch.Cfg) : Prop where
  wf : C.P.WF
  dom : Dom C.P R
  even : C.P.Even
  emb : MM.Arises C.P R G C.E
  var : C.u < C.P.nv
  nbrs : VnOK C.P C.S
  pos : 0 < C.k
  le : C.k ≤ C.P.nq
  ord : ∀ v, (C.ord v).Perm ((C.E.chains v).keys C.P.Q)

variable {C : Call} {R : Nat → Nat → Prop} {G : Scratch.Cfg}

theorem Par.Call.Arises.solve (h : C.Arises R G) (t0 : Tape) : ∃ t S' tot1 tot, C.Solved S' tot1 ∧
    Scratch.rootParallel C.P C.weight C.E C.wb C.u { C.S with tape := t } = .ok (tot, S') ∧ S'.tape = t0 ∧
    S'.vn = C.S.vn ∧ S'.perm = C.S.perm ∧ Same C.P.nq tot (C.total S' tot1) :=
  C.solve h.wf h.dom (h.emb.inv h.wf h.dom h.even) h.var h.nbrs h.pos h.le h.ord t0

/-- **C114, the outcome.** All ways the threads can be scheduled end with the same distances and the
same paths, and these are what the model without threads computes: every theorem about the
latter, which holds for all tapes, holds of the program with threads. -/
theorem C114_outcome (h : C.Arises R G) (t0 : Tape) :
    ∃ t tot S', Scratch.rootParallel C.P C.weight C.E C.wb C.u { C.S with tape := t } = .ok (tot, S') ∧ S'.tape = t0 ∧
      ∀ tot' row, C.Reached (.done tot' row) → (∀ q, q < C.P.nq → tot' q = tot q) ∧
        ∀ v, row v = ⟨S'.par v, S'.vis v, S'.dist v⟩ := by
  obtain ⟨t, S', tot1, tot, hS, h1, h2, _, _, h3⟩ := h.solve t0
  refine ⟨t, tot, S', h1, h2, fun tot' row hr => ?_⟩
  obtain ⟨e1, e2⟩ := hr.inv hS
  exact ⟨fun q hq => (e2 q hq).trans (h3 q hq).symm, fun v => by rw [e1]; rfl⟩

/-- **C114, number of threads and leftovers.** Nor does the outcome depend on the number of threads or
on what earlier calls left in the arrays of weights and totals. -/
theorem C114_number (h : C.Arises R G) {k : Nat} {tw : Nat → Int} {old : Nat → D × D}
    (h' : ({ C with k := k, tw := tw, old := old } : Call).Arises R G) {tot tot' : Nat → D} {row row' : Nat → Row}
    (hr : C.Reached (.done tot row)) (hr' : ({ C with k := k, tw := tw, old := old } : Call).Reached (.done tot' row')) :
    (∀ q, q < C.P.nq → tot q = tot' q) ∧ row = row' := by
  obtain ⟨t, S', tot1, _, hS, _⟩ := h.solve C.S.tape
  have hS' : ({ C with k := k, tw := tw, old := old } : Call).Solved S' tot1 := ⟨h'.pos, h'.le, hS.3, hS.4, hS.5, hS.6⟩
  obtain ⟨e1, e2⟩ := hr.inv hS
  obtain ⟨f1, f2⟩ := hr'.inv hS'
  exact ⟨fun q hq => (e2 q hq).trans (f2 q hq).symm, e1.trans f1.symm⟩

/-- **C114, ending.** No schedule goes on forever; none gets stuck before the end, so every one can be
continued to the end; and no thread ever does anything undefined. -/
theorem C114_ends (h : C.Arises R G) :
    (¬ ∃ f : Nat → Stage, f 0 = C.start ∧ ∀ n, C.Step (f n) (f (n+1))) ∧
    (∀ X, C.Reached X → ∃ tot row, C.Goes X (.done tot row)) ∧
    (∀ m X, C.Reached (.search m X) → ¬ X.Bad (C.fixed fun q => (m q).1) C.k) := by
  obtain ⟨t, S', tot1, tot, hS, -⟩ := h.solve C.S.tape
  refine ⟨?_, ?_, fun m X hX => (hX.inv hS).2.safe⟩
  · rintro ⟨f, h0, hf⟩
    have hr : ∀ n, C.Reached (f n) := by
      intro n
      induction n with
      | zero => rw [h0]; exact .start
      | succ n ih => exact .step ih (hf n)
    have : ∀ (m : Nat × Nat × Nat) (n : Nat), (f n).measure C ≠ m := by
      intro m
      induction m using smaller_wf.induction with
      | _ m ih =>
        intro n hn
        exact ih _ (hn ▸ ((hr n).inv hS).decreases hS (hf n)) (n+1) rfl
    exact this _ 0 rfl
  · intro X
    generalize hm : X.measure C = m
    induction m using smaller_wf.induction generalizing X with
    | _ m ih =>
      intro hX
      rcases (hX.inv hS).progress hS with ⟨tot, row, rfl⟩ | ⟨Y, hY⟩
      · exact ⟨tot, row, .refl _⟩
      · obtain ⟨tot, row, hg⟩ := ih _ (hm ▸ (hX.inv hS).decreases hS hY) Y rfl (.step hX hY)
        exact ⟨tot, row, .step hY hg⟩

/-- Two workers on the same array are about to touch, now or later, different entries. -/
def Par.Ranges.NoRace {α : Type} (X : Ranges α) : Prop :=
  ∀ i j, i ≠ j → ∀ a ∈ X.prog i, ∀ b ∈ X.prog j, a.1 ≠ b.1

theorem Par.RInv.noRace {α : Type} {prog0 : Nat → List (Access α)} {mem0 : Nat → α} {X : Ranges α} (hap : Apart prog0)
    (h : RInv prog0 mem0 X) : X.NoRace := by
  intro i j hij a ha b hb e
  obtain ⟨l, hl⟩ := h.rest i
  obtain ⟨l', hl'⟩ := h.rest j
  exact hij (hap i j a (by rw [hl]; simp [ha]) b (by rw [hl']; simp [hb]) e)

/-- **C114, no races.** At no time do two threads have the same entry of an array before them, or search
from the same neighbour, or hold the lock. -/
theorem C114_races (h : C.Arises R G) {X : Stage} (hX : C.Reached X) :
    match X with
    | .weigh X => X.NoRace
    | .prep X => X.NoRace
    | .search _ X => ∀ i j, i ≠ j → (∀ v, X.J.pc i = .work v → X.J.pc j ≠ .work v) ∧ (X.J.pc i = .scan → X.J.pc j ≠ .scan)
    | .sum _ X => X.NoRace
    | .done _ _ => True := by
  obtain ⟨t, S', tot1, tot, hS, -⟩ := h.solve C.S.tape
  have hI := hX.inv hS
  cases X with
  | weigh X => exact RInv.noRace (weigh_apart _ _ _) hI
  | prep X => exact RInv.noRace (apart_of_range hS.pos fun j a => prepProg_mem) hI
  | search m X =>
    obtain ⟨x1, x2, _⟩ := C17_exclusive hS.nodup hI.2.jobs
    exact fun i j hij => ⟨fun v hi hj => hij (x2 i j v hi hj), fun hi hj => hij (x1 i j hi hj)⟩
  | sum row X =>
    obtain ⟨_, _, _, h3⟩ := hI
    exact RInv.noRace (apart_of_range hS.pos fun j a => sumProg_mem) h3
  | done => trivial

/-! ### `find_chain` -/

theorem findChain_eq (P : Prob) (G : Scratch.Cfg) (wb : Int) (cs u : Nat) (E : Emb) (S : Scratch) (hG : G.par = true) :
    Scratch.findChain P G wb cs u E S = (Scratch.mixQueues P u S).bind fun S =>
      (Scratch.rootParallel P G.weight E wb u S).bind fun r => pickRoot P cs u E r.1 r.2 := by
  unfold Scratch.findChain
  rw [hG]
  rfl

theorem collectMinima_same {n : Nat} (hn : 0 < n) {a b : Nat → D} (h : Same n a b) :
    Scratch.collectMinima n a = Scratch.collectMinima n b := by
  obtain ⟨l1, m1, k1, _⟩ := collectMinima_eq hn a
  obtain ⟨l2, m2, k2, _⟩ := collectMinima_eq hn b
  rw [m1, m2, k1, k2]
  congr 1
  apply List.filter_congr
  intro i hi
  rw [Bool.eq_iff_iff, List.all_eq_true, List.all_eq_true]
  refine forall_congr' fun j => imp_congr_right fun hj => ?_
  rw [h i (List.mem_range.1 hi), h j (List.mem_range.1 hj)]

theorem pickRoot_same {P : Prob} (hn : 0 < P.nq) {cs u : Nat} {E : Emb} {a b : Nat → D} (h : Same P.nq a b) (S : Scratch) :
    pickRoot P cs u E a S = pickRoot P cs u E b S := by
  unfold pickRoot
  rw [collectMinima_same hn h]
  obtain ⟨l, m1, k1, _⟩ := collectMinima_eq hn b
  rw [m1]
  dsimp only [bind, Except.bind]
  cases hq : l[(pick l.length S.tape).1]? with
  | none => rfl
  | some q0 =>
    have hlt : q0 < P.nq := by
      have := List.mem_of_getElem? hq
      rw [k1] at this
      exact List.mem_range.1 (List.mem_filter.1 this).1
    dsimp only
    rw [h q0 hlt]

theorem rndswap_tape (l : List Nat) (t t1 : Tape) : ∃ t', Scratch.rndswap l t' = ((Scratch.rndswap l t).1, t1) := by
  unfold Scratch.rndswap
  split
  · exact ⟨Tape.cons t.head t1, rfl⟩
  · split
    · exact ⟨Tape.cons t.head t1, rfl⟩
    · exact ⟨t1, rfl⟩

/-- The shuffling reads some numbers off the tape; others may follow. -/
theorem mixQueues_tape {P : Prob} {u : Nat} {S S1 : Scratch} (h : Scratch.mixQueues P u S = .ok S1) (t1 : Tape) :
    ∃ t, Scratch.mixQueues P u { S with tape := t } = .ok { S1 with tape := t1 } := by
  unfold Scratch.mixQueues at h ⊢
  dsimp only at h ⊢
  by_cases hl : (Scratch.rndswap (S.vn u) S.tape).1.length = 0
  · obtain ⟨t', ht'⟩ := rndswap_tape (S.vn u) S.tape t1
    rw [if_pos hl] at h
    cases h
    refine ⟨t', ?_⟩
    rw [ht', if_pos hl]
  · obtain ⟨t', ht'⟩ := rndswap_tape (S.vn u) S.tape (Tape.cons (Scratch.rndswap (S.vn u) S.tape).2.head t1)
    rw [if_neg hl] at h
    refine ⟨t', ?_⟩
    rw [ht', if_neg hl]
    generalize Scratch.rndswap (S.vn u) S.tape = r at h ht' hl ⊢
    have e : pick r.1.length (Tape.cons r.2.head t1) = ((pick r.1.length r.2).1, t1) := rfl
    rw [e]
    cases hv : r.1[(pick r.1.length r.2).1]? with
    | none => rw [hv] at h; cases h
    | some v =>
      rw [hv] at h
      dsimp only at h ⊢
      split at h
      · next hc => rw [if_pos hc]; cases h; rfl
      · cases h

/-- **C114, chains.** Whatever chain a pathfinder with `k` threads can give a variable, under any schedule,
the model without threads can give too, with some tape. -/
theorem C114_chain {P : Prob} {E : Emb} (wf : P.WF) (hR : Dom P R) (he : P.Even) (hE : MM.Arises P R G E) (hG : G.par = true)
    {k : Nat} (hk : 0 < k) (hle : k ≤ P.nq) {wb : Int} {cs u : Nat} (hu : u < P.nv) {S : Scratch} (hS : VnOK P S)
    {out : M (Emb × Scratch × Bool)} (h : Finds P G.weight k wb cs u E S out) :
    ∃ t, Scratch.findChain P G wb cs u E { S with tape := t } = out := by
  obtain ⟨S1, hm, ord, tw, old, tot', row, ho, hr, hp⟩ := h
  have hS1 : VnOK P S1 := by
    obtain ⟨S1', h1, h2⟩ := mixQueues_spec wf hu hS
    rw [hm] at h1; cases h1
    exact h2
  obtain ⟨t, S', tot1, tot, hsol, h1, h2, h3, h4, h5⟩ :=
    Call.Arises.solve (C := ⟨P, G.weight, E, wb, u, k, ord, S1, tw, old⟩) ⟨wf, hR, he, hE, hu, hS1, hk, hle, ho⟩ S1.tape
  obtain ⟨e1, e2⟩ := hr.inv hsol
  obtain ⟨t', ht'⟩ := mixQueues_tape hm t
  refine ⟨t', ?_⟩
  rw [findChain_eq _ _ _ _ _ _ _ hG, ht']
  dsimp only [Except.bind] at h1 ⊢
  rw [h1]
  dsimp only
  rw [← hp]
  have hst : ({ S1 with par := fun v => (row v).par, vis := fun v => (row v).vis, dist := fun v => (row v).dist } : Scratch) = S' := by
    obtain ⟨v1, v2, v3, v4, v5, v6⟩ := S'
    subst e1
    dsimp only at h2 h3 h4
    subst h2 h3 h4
    rfl
  rw [hst]
  exact (pickRoot_same wf.nq_pos (fun q hq => (e2 q hq).trans (h5 q hq).symm) S').symm

/-! ### a case -/

namespace Demo

/-- A call on the path of four qubits, with three threads. -/
def call (E : Emb) : Call :=
  ⟨P0, cfg.weight, E, 5, 0, 3, fun v => (E.chains v).keys P0.Q,
    ⟨P0.vn, fun _ _ => none, fun _ _ => 0, fun _ _ => none, fun _ q => q, tape0⟩, fun _ => 7, fun _ => (none, some 3)⟩

end Demo

example : ∃ E, (Demo.call E).Arises Demo.R0 Demo.cfg ∧ ∃ tot row, (Demo.call E).Goes (Demo.call E).start (.done tot row) := by
  obtain ⟨E0, _, _, h⟩ := Demo.arises0
  have hA : (Demo.call (Emb.copy Demo.P0 Emb.empty E0)).Arises Demo.R0 Demo.cfg :=
    ⟨Demo.P0_wf, Demo.P0_dom, Demo.P0_even, h, show 0 < 2 by decide, fun _ _ => List.Perm.refl _, show 0 < 3 by decide,
      show 3 ≤ 4 by decide, fun _ => List.Perm.refl _⟩
  exact ⟨_, hA, (C114_ends hA).2.1 _ .start⟩

theorem Par.Call.Goes.reached {X Y : Stage} (h : C.Goes X Y) (hX : C.Reached X) : C.Reached Y := by
  induction h with
  | refl => exact hX
  | step hs _ ih => exact ih (.step hX hs)

/-- With three threads a chain is found for variable 0, under some schedule. -/
example : ∃ E S, MM.Arises Demo.P0 Demo.R0 Demo.cfg E ∧ VnOK Demo.P0 S ∧ ∃ out, Finds Demo.P0 Demo.cfg.weight 3 5 0 0 E S out := by
  obtain ⟨E0, _, _, h⟩ := Demo.arises0
  have hS : VnOK Demo.P0 (Demo.call (Emb.copy Demo.P0 Emb.empty E0)).S := fun _ _ => List.Perm.refl _
  refine ⟨_, _, h, hS, ?_⟩
  obtain ⟨S1, h1, h2⟩ := mixQueues_spec Demo.P0_wf (show 0 < Demo.P0.nv by decide) hS
  have hA : ({ Demo.call (Emb.copy Demo.P0 Emb.empty E0) with S := S1 } : Call).Arises Demo.R0 Demo.cfg :=
    ⟨Demo.P0_wf, Demo.P0_dom, Demo.P0_even, h, show 0 < 2 by decide, h2, show 0 < 3 by decide,
      show 3 ≤ 4 by decide, fun _ => List.Perm.refl _⟩
  obtain ⟨tot, row, hg⟩ := (C114_ends hA).2.1 _ .start
  exact ⟨_, S1, h1, _, _, _, tot, row, fun _ => List.Perm.refl _, hg.reached .start, rfl⟩

end MM
