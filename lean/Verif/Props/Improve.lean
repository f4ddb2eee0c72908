import Verif.Core.RunPost
import Verif.Props.State

/-! C08, C09, C10: how the best embedding changes, that improving ends, and stopping. -/

namespace MM

open Scratch (Cfg)
open Spec (Better)

variable {P : Prob} {R : Nat → Nat → Prop} {C : Cfg} {A : Params}

/-! ### C08 -/

/-- **C08, the order.** `Spec.Better` is a strict total order in which no sequence descends
forever: it never prefers a candidate to itself, never cycles, and of two different
qualities one is better. -/
theorem C08_strict_order :
    (∀ a, ¬ Better a a) ∧ (∀ a b c, Better a b → Better b c → Better a c) ∧
    (∀ a b, a ≠ b → Better a b ∨ Better b a) ∧ ¬ ∃ f : Nat → Bool × List Nat, ∀ n, Better (f (n+1)) (f n) := by
  refine ⟨Better.irrefl, fun a b c => Better.trans, fun a b => Better.total, ?_⟩
  rintro ⟨f, hf⟩
  have key : ∀ x, ∀ n, f n ≠ x := by
    intro x
    induction x using Better.wf.induction with
    | _ x ih =>
      intro n hn
      exact ih (f (n+1)) (hn ▸ hf n) (n+1) rfl
  exact key (f 0) 0 rfl

/-- **C08, accepting.** When there is a best embedding, a candidate replaces it if and only
if it is better; otherwise nothing changes. -/
theorem C08_accepts_iff_better {X Y : Run} {b : Bool} {st : Bool × List Nat} (hs : X.stats ≠ [])
    (hst : X.curr.statistics P = .ok st) (h : Run.check P X = .ok (Y, b)) :
    (b = true ↔ Better st X.quality) ∧
    (b = true → Y.quality = st ∧ Y.best = Emb.copy P X.best X.curr) ∧ (b = false → Y = X) := by
  obtain ⟨_, st', h1, h2⟩ := check_post hs _ h
  rw [hst] at h1; cases h1
  rcases h2 with ⟨a, b', c, d⟩ | ⟨a, b', c⟩
  · dsimp only at a; subst a
    exact ⟨iff_of_true rfl c, fun _ => ⟨b', d⟩, by simp⟩
  · dsimp only at a; subst a
    exact ⟨iff_of_false (by simp) c, by simp, fun _ => b'⟩

/-- **C08, restarting.** The first candidate of a start or restart is accepted whatever its
quality. -/
theorem C08_first_accepted {X Y : Run} {b : Bool} {st : Bool × List Nat} (hs : X.stats = [])
    (he : X.embedded = false) (hst : X.curr.statistics P = .ok st) (h : Run.check P X = .ok (Y, b)) :
    b = true ∧ Y.quality = st ∧ Y.best = Emb.copy P X.best X.curr := by
  obtain ⟨emb, tmp⟩ := st
  unfold Run.check Run.checkImprovement at h
  rw [hst] at h
  dsimp only [bind, Except.bind] at h
  rw [he, hs] at h
  simp only [Bool.false_and, Bool.false_eq_true, if_false] at h
  cases hl : tmp.getLast? with
  | none => rw [hl] at h; cases h
  | some m =>
    rw [hl] at h
    simp only [List.isEmpty_nil, Bool.or_true, Bool.true_or, if_true] at h
    cases emb
    · simp only [Bool.or_false, Bool.false_and, Bool.false_or, Bool.false_eq_true, if_false] at h
      cases h
      exact ⟨rfl, by simp [Run.quality, he], rfl⟩
    · simp at h
      obtain ⟨rfl, rfl⟩ := h
      exact ⟨rfl, rfl, rfl⟩

/-- **C08, the passes.** The rounds of a trial and the phase that shortens chains leave the
best embedding as it was or replace it by a better one, whatever happens in them. -/
theorem C08_never_worse {X Y : Run} (hs : X.stats ≠ []) :
    (∀ trial r ip ip', Run.rounds P C A trial r ip X = .ok (Y, ip') →
      (Y.best = X.best ∧ Y.quality = X.quality) ∨ Better Y.quality X.quality) ∧
    (∀ fuel ip, Run.shrink P C A fuel ip X = .ok Y →
      (Y.best = X.best ∧ Y.quality = X.quality) ∨ Better Y.quality X.quality) :=
  ⟨fun _ r _ _ h => (((along_noWorse P A).rounds r) _ h hs).2,
    fun fuel _ h => (((along_noWorse P A).shrink fuel) _ h hs).2⟩

/-! ### C09 -/

theorem shrink_more : ∀ (fuel : Nat) {ip : Nat} {X : Run}, Run.shrink P C A fuel ip X ≠ .error .diverge →
    Run.shrink P C A (fuel+1) ip X = Run.shrink P C A fuel ip X
  | 0, 0, X => fun _ => rfl
  | 0, _+1, X => fun h => absurd rfl h
  | fuel+1, 0, X => fun _ => rfl
  | fuel+1, ip+1, X => by
    intro h
    rw [Run.shrink.eq_3]
    rw [Run.shrink.eq_3 P C A X fuel ip]
    rw [Run.shrink.eq_3] at h
    cases hp : Run.chainlengthPass P C A
        { X with last := Emb.copy P X.last X.curr, desperate := decide (ip = 0) } with
    | error e => rfl
    | ok r =>
      obtain ⟨Y, res⟩ := r
      rw [hp] at h
      cases res with
      | failed => exact shrink_more fuel h
      | stopped => rfl
      | same => exact shrink_more fuel h
      | better => exact shrink_more fuel h

theorem heuristic_more {fuel : Nat} {X : Run} (h : Run.heuristicFor P C A fuel X ≠ .error .diverge) :
    Run.heuristicFor P C A (fuel+1) X = Run.heuristicFor P C A fuel X := by
  unfold Run.heuristicFor at *
  cases h1 : Run.start P C A X with
  | error e => rfl
  | ok r =>
    obtain ⟨X1, go⟩ := r
    rw [h1] at h
    cases go with
    | false => rfl
    | true =>
      dsimp only [bind, Except.bind] at *
      simp only [if_true] at *
      cases h2 : Run.check P { X1 with stats := [] } with
      | error e => rfl
      | ok r =>
        obtain ⟨X2, b⟩ := r
        rw [h2] at h
        dsimp only at *
        cases h3 : Run.trials P C A A.tries { X2 with improved := true, curr := Emb.copy P X2.curr X2.best } with
        | error e => rfl
        | ok X3 =>
          rw [h3] at h
          dsimp only at *
          by_cases hc : X3.embedded = true ∧ A.clPatience ≠ 0
          · rw [if_pos hc] at h ⊢
            rw [if_pos hc]
            rw [shrink_more]
            intro hd
            rw [hd] at h
            exact h rfl
          · rw [if_neg hc, if_neg hc]

/-- **C09.** From every state a search starts in, the phase that shortens chains needs at
most `(chainlength_patience + 1) * ((n + 1) ^ (q + 2) + 1)` passes, for `n` free variables and `q`
qubits: allowing any larger number of passes changes nothing, and the search never runs
out of them. -/
theorem C09_improvement_terminates (wf : P.WF) (hR : Dom P R) (he : P.Even) (hn : 0 < P.N)
    {init : List (Nat × List Nat)} (hi : InitOK P R init) {t : Tape} {X : Run} (hX : Run.new P init t = .ok X)
    {fuel : Nat} (hf : (A.clPatience + 1) * ((P.nv + 1) ^ (P.Q + 2) + 1) ≤ fuel) :
    Run.heuristicFor P C A fuel X ≠ .error .diverge ∧
    Run.heuristicFor P C A fuel X =
      Run.heuristicFor P C A ((A.clPatience + 1) * ((P.nv + 1) ^ (P.Q + 2) + 1)) X := by
  have h0 := (Run.new_spec wf hR hi t).of_eq hX
  have key : ∀ n, (A.clPatience + 1) * ((P.nv + 1) ^ (P.Q + 2) + 1) ≤ n →
      Run.heuristicFor P C A n X ≠ .error .diverge := by
    intro n hn'
    rcases heuristicFor_spec (C := C) wf hR he hn h0 hn' with ⟨a, ha, _⟩ | ⟨_, ha⟩ | ⟨_, ha⟩ <;> rw [ha] <;> simp
  refine ⟨key fuel hf, ?_⟩
  obtain ⟨d, rfl⟩ := Nat.exists_eq_add_of_le hf
  induction d with
  | zero => rfl
  | succ d ih =>
    have := heuristic_more (key _ (Nat.le_add_right _ d))
    exact this.trans (ih (Nat.le_add_right _ d))

/-! ### C10 -/

/-- **C10, one look at the clock.** An interrupt that is pending wins over the stop time; it
raises unless `interactive`, where it stops the pass like the stop time does. -/
theorem C10_look {X : Run} {r : Pass} :
    let X' := { X with clock := X.clock + 1 }
    ((A.stops X.clock).1 = true → A.interactive = false → Run.checkStops A r X = .error .cancelled) ∧
    ((A.stops X.clock).1 = true → A.interactive = true → Run.checkStops A r X = .ok (X', .stopped)) ∧
    ((A.stops X.clock).1 = false → (A.stops X.clock).2 = true → Run.checkStops A r X = .ok (X', .stopped)) ∧
    ((A.stops X.clock).1 = false → (A.stops X.clock).2 = false → Run.checkStops A r X = .ok (X', r)) := by
  unfold Run.checkStops
  cases A.stops X.clock with
  | mk i s => cases i <;> cases hA : A.interactive <;> cases s <;> simp

theorem Calm.of_clock {X Y : Run} (h : Y.clock = X.clock) : Calm A X Y :=
  ⟨by omega, fun n h1 h2 => by omega⟩

theorem heuristicFor_calm (hA : A.interactive = false) {fuel : Nat} {X : Run} :
    Post (Run.heuristicFor P C A fuel X) (fun r => Calm A X r.1) := by
  have al := along_calm P hA
  unfold Run.heuristicFor
  refine Post.bind (P := fun r => Calm A X r.1) ?_ ?_
  · unfold Run.start Run.resetMood
    dsimp only
    split
    · split
      · exact Post.pure (Calm.of_clock rfl)
      · exact Post.error
    · refine Post.bind (P := fun r => Calm A X r.1) (al.initPass.mono fun _ k => al.trans (Calm.of_clock (by rfl)) k) ?_
      rintro ⟨Y, res⟩ hY
      cases res with
      | stopped => exact Post.pure hY
      | failed => exact Post.error
      | same => exact Post.pure hY
      | better => exact Post.pure hY
  rintro ⟨X1, go⟩ h1
  dsimp only at h1 ⊢
  split
  · refine Post.bind (P := fun r => Calm A X r.1) (check_clock.mono fun r k =>
      al.trans h1 (Calm.of_clock k)) ?_
    rintro ⟨X2, b⟩ h2
    dsimp only at h2 ⊢
    refine Post.bind (P := fun Y => Calm A X Y) ((al.trials (fun _ => Calm.of_clock rfl) A.tries).mono
      fun Y k => al.trans h2 (al.trans (Calm.of_clock rfl) k)) ?_
    intro X3 h3
    split
    · refine Post.bind (P := fun Y => Calm A X Y) ((al.shrink fuel).mono
        fun Y k => al.trans h3 (al.trans (Calm.of_clock rfl) k)) ?_
      intro X4 h4
      exact Post.pure h4
    · exact Post.pure h3
  · exact Post.pure h1

/-- **C10, interrupts propagate.** Unless `interactive`, a search that ends normally has not
seen an interrupt in any of its looks at the clock. -/
theorem C10_interrupt_propagates (hA : A.interactive = false) {X Y : Run} {b : Bool}
    (h : Run.heuristic P C A X = .ok (Y, b)) :
    ∀ n, X.clock ≤ n → n < Y.clock → (A.stops n).1 = false :=
  (heuristicFor_calm hA _ h).2

/-- The same parameters, with every interrupt replaced by an expired stop time. -/
def Params.asTimeout (A : Params) : Params :=
  { A with stops := fun n => (false, (A.stops n).1 || (A.stops n).2) }

theorem checkStops_asTimeout (hA : A.interactive = true) : Run.checkStops A.asTimeout = Run.checkStops A := by
  funext r X
  unfold Run.checkStops Params.asTimeout
  dsimp only
  rw [hA]
  cases (A.stops X.clock).1 <;> cases (A.stops X.clock).2 <;> rfl

theorem initPass_asTimeout (hA : A.interactive = true) : Run.initPass P C A.asTimeout = Run.initPass P C A := by
  funext X; unfold Run.initPass; rw [checkStops_asTimeout hA]; rfl

theorem chainlengthPass_asTimeout (hA : A.interactive = true) :
    Run.chainlengthPass P C A.asTimeout = Run.chainlengthPass P C A := by
  funext X; unfold Run.chainlengthPass; rw [checkStops_asTimeout hA]

theorem overfillPass_asTimeout (hA : A.interactive = true) :
    Run.overfillPass P C A.asTimeout = Run.overfillPass P C A := by
  funext X; unfold Run.overfillPass; rw [checkStops_asTimeout hA]

theorem pushdownPass_asTimeout (hA : A.interactive = true) :
    Run.pushdownPass P C A.asTimeout = Run.pushdownPass P C A := by
  funext X; unfold Run.pushdownPass; rw [checkStops_asTimeout hA]; rfl

theorem rounds_asTimeout (hA : A.interactive = true) {trial : Nat} : ∀ (r ip : Nat) (X : Run),
    Run.rounds P C A.asTimeout trial r ip X = Run.rounds P C A trial r ip X
  | 0, _, _ => rfl
  | r+1, ip, X => by
    unfold Run.rounds
    rw [overfillPass_asTimeout hA, pushdownPass_asTimeout hA]
    simp only [rounds_asTimeout hA r]
    rfl

theorem trials_asTimeout (hA : A.interactive = true) : ∀ (t : Nat) (X : Run),
    Run.trials P C A.asTimeout t X = Run.trials P C A t X
  | 0, _ => rfl
  | t+1, X => by
    unfold Run.trials
    rw [initPass_asTimeout hA]
    simp only [trials_asTimeout hA t, rounds_asTimeout hA]
    rfl

theorem shrink_asTimeout (hA : A.interactive = true) : ∀ (fuel ip : Nat) (X : Run),
    Run.shrink P C A.asTimeout fuel ip X = Run.shrink P C A fuel ip X
  | 0, 0, _ => rfl
  | 0, _+1, _ => rfl
  | fuel+1, 0, _ => rfl
  | fuel+1, ip+1, X => by
    unfold Run.shrink
    rw [chainlengthPass_asTimeout hA]
    simp only [shrink_asTimeout hA fuel]
    rfl

theorem heuristic_asTimeout (hA : A.interactive = true) (X : Run) :
    Run.heuristic P C A.asTimeout X = Run.heuristic P C A X := by
  unfold Run.heuristic Run.heuristicFor Run.start
  rw [initPass_asTimeout hA]
  simp only [trials_asTimeout hA, shrink_asTimeout hA]
  rfl

/-- **C10, interactive.** With `interactive`, a call behaves in every respect as if each
interrupt were an expired stop time. -/
theorem C10_interactive_interrupt_is_timeout (hA : A.interactive = true)
    (sort : List (List Nat) → List (List Nat)) (ro : Bool) (I : Input) (t : Tape) :
    findEmbedding sort C A ro I t =
      findEmbedding sort C { A with stops := fun n => (false, (A.stops n).1 || (A.stops n).2) } ro I t := by
  unfold findEmbedding
  have : ∀ (p : Proc) (X : Run),
      Run.heuristic p.P C { A with restricted := !I.restrC.isEmpty, stops := fun n => (false, (A.stops n).1 || (A.stops n).2) } X =
      Run.heuristic p.P C { A with restricted := !I.restrC.isEmpty } X :=
    fun p X => heuristic_asTimeout (A := { A with restricted := !I.restrC.isEmpty }) hA X
  simp only [this]

/-- **C10, timeouts return.** If no interrupt is ever pending, or `interactive` is set, a call
ends normally or with one of the exceptions that have nothing to do with stopping, whenever
the stop time passes. -/
theorem C10_timeout_returns {sort : List (List Nat) → List (List Nat)} {I : Input} (hs : SortOK sort)
    (hI : I.OK) (hr : I.Compatible) (ro : Bool) (t : Tape)
    (hA : A.interactive = true ∨ ∀ n, (A.stops n).1 = false) :
    (∃ r, findEmbedding sort C A ro I t = .ok r) ∨
    ∃ e, findEmbedding sort C A ro I t = .error e ∧ e ∈ [Fault.badInit, .corrupt, .small] := by
  have h := findEmbedding_free hs hI hr C A ro t
  cases hc : findEmbedding sort C A ro I t with
  | ok r => exact Or.inl ⟨r, rfl⟩
  | error e =>
    rw [hc] at h
    obtain ⟨h1, h2, h3⟩ := h
    refine Or.inr ⟨e, rfl, ?_⟩
    have h3 : e ≠ .cancelled := by
      intro he
      obtain ⟨a, n, hn⟩ := h3 he
      rcases hA with hA | hA
      · rw [hA] at a; simp at a
      · rw [hA n] at hn; simp at hn
    cases e <;> simp_all

/-- **C10, success is kept.** Once the best embedding has no overlaps it stays so until the
search ends, whatever stops it: no trial replaces it, and the chain length phase keeps it or
finds a better one without overlaps. -/
theorem C10_success_kept {X Y : Run} (hs : X.stats ≠ []) (he : X.embedded = true) :
    (∀ trial r ip ip', Run.rounds P C A trial r ip X = .ok (Y, ip') → Y.embedded = true) ∧
    (∀ t, Run.trials P C A t X = .ok X) ∧
    (∀ fuel ip, Run.shrink P C A fuel ip X = .ok Y → Y.embedded = true) :=
  ⟨fun _ r _ _ h => ((along_noWorse P A).rounds r _ h).emb hs he, fun t => trials_embedded t he,
    fun fuel _ h => ((along_noWorse P A).shrink fuel _ h).emb hs he⟩

/-- **C10, the answer.** The search reports success exactly if its best embedding has no
overlaps. -/
theorem C10_answer (wf : P.WF) (hR : Dom P R) (he : P.Even) (hn : 0 < P.N)
    {init : List (Nat × List Nat)} (hi : InitOK P R init) {t : Tape} {X Y : Run} (hX : Run.new P init t = .ok X)
    {b : Bool} (h : Run.heuristic P C A X = .ok (Y, b)) : b = Y.embedded := by
  have h0 := (Run.new_spec wf hR hi t).of_eq hX
  rcases heuristic_spec (C := C) (A := A) wf hR he hn h0 with ⟨a, ha, k⟩ | ⟨_, ha⟩ | ⟨_, ha⟩
  · rw [h] at ha; cases ha; exact k.2.1
  · rw [h] at ha; cases ha
  · rw [h] at ha; cases ha

/-! ### concrete runs -/

namespace Demo

theorem new0 : ∃ X, Run.new P0 init0 tape0 = .ok X ∧ RI0 P0 R0 X := Run.new_spec P0_wf P0_dom init0_ok tape0

/-- The overlapping chains `{0, 1}` and `{1, 2}` are accepted first; the search then goes on to an
embedding without overlaps, with chains of one and two qubits; checking the initial chains
again changes nothing. -/
theorem run0 : (match Run.new P0 init0 tape0 with
    | .ok X => (match Run.check P0 { X with curr := Emb.copy P0 X.curr X.init, stats := [] } with
      | .ok (X1, b1) => decide (b1 = true ∧ X1.quality = (false, [1])) &&
        (match Run.rounds P0 cfg params 1 2 2 { X1 with wb := 63 } with
        | .ok (X2, _) => decide (X2.quality = (true, [0, 1, 1])) &&
          (match Run.check P0 { X2 with curr := Emb.copy P0 X2.curr X.init } with
          | .ok (X3, b3) => decide (b3 = false ∧ X3.quality = (true, [0, 1, 1]))
          | .error _ => false)
        | .error _ => false)
      | .error _ => false)
    | .error _ => false) = true := by decide +kernel

/-- An interrupt at the second look at the clock. -/
def interrupted (i : Bool) : Params := { params with interactive := i, stops := fun n => (n == 1, false) }

/-- The stop time passes at once. -/
def late : Params := { params with stops := fun _ => (false, true) }

end Demo

example : Better (true, [0, 2]) (false, [1]) ∧ Better (true, [0, 3, 1]) (true, [0, 2, 2]) := by
  refine ⟨Or.inl ⟨rfl, rfl⟩, Or.inr ⟨rfl, Or.inr ⟨rfl, 2, 1, 2, rfl, rfl, by decide, ?_⟩⟩⟩
  intro j hj
  rw [List.getElem?_eq_none (by simp; omega), List.getElem?_eq_none (by simp; omega)]

example : ∃ X, Run.new Demo.P0 Demo.init0 Demo.tape0 = .ok X ∧
    Run.heuristicFor Demo.P0 Demo.cfg Demo.params 10000 X ≠ .error .diverge :=
  let ⟨X, hX, _⟩ := Demo.new0
  ⟨X, hX, (C09_improvement_terminates Demo.P0_wf Demo.P0_dom Demo.P0_even (by decide) Demo.init0_ok hX
    (by decide)).1⟩

example : findEmbedding Demo.sortBySize Demo.cfg (Demo.interrupted false) false Demo.path3 Demo.tape0 =
    .error .cancelled := by decide +kernel

example : findEmbedding Demo.sortBySize Demo.cfg (Demo.interrupted true) false Demo.path3 Demo.tape0 =
    .ok (true, [[2], [3], [4]]) := by decide +kernel

example : findEmbedding Demo.sortBySize Demo.cfg Demo.late false Demo.path3 Demo.tape0 = .ok (false, []) := by
  decide +kernel

end MM
