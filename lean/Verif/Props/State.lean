import Verif.Core.Undo
import Verif.Core.Stats
import Verif.Props.Demo

/-! C06, C07: the accounting of qubits, and undoing. -/

namespace MM

open Scratch (Cfg)

/-- The embeddings that arise in a run on the problem `P`: every operation the search
applies, in any order, with any outcome. `chains` is loaded with the initial embedding,
copied, torn, frozen, thawed, grown, and qubits move between chains.

The conditions are those under which the code calls the operation: a chain is placed only
where none is, and qubits are handed back only to chains the variable is linked with. -/
inductive Arises (P : Prob) (R : Nat → Nat → Prop) (C : Cfg) : Emb → Prop
  /-- `currEmbedding = initEmbedding` -/
  | load {init t t' E0} : InitOK P R init → Emb.construct P init t = .ok (E0, t') →
      Arises P R C (Emb.copy P Emb.empty E0)
  /-- `lastEmbedding = currEmbedding` and the like -/
  | assign {E F} : Arises P R C E → Arises P R C F → Arises P R C (Emb.copy P E F)
  /-- assigning the initial embedding over another -/
  | reload {init t t' E0 E} : InitOK P R init → Emb.construct P init t = .ok (E0, t') →
      Arises P R C E → Arises P R C (Emb.copy P E E0)
  | tear {E E' u vnu} : Arises P R C E → u < P.nv → vnu.Perm (P.vn u) →
      Emb.tearOut E vnu u = .ok E' → Arises P R C E'
  | freeze {E E' u n} : Arises P R C E → u < P.nv → Emb.freezeOut P E u = .ok (E', n) → Arises P R C E'
  | steal {E E' u vnu} : Arises P R C E → u < P.nv → vnu.Perm (P.vn u) →
      Emb.stealAll P E vnu u = .ok E' → Arises P R C E'
  | flip {E E' u vnu cs} : Arises P R C E → u < P.nv → vnu.Perm (P.vn u) →
      (∀ v ∈ vnu, (∃ q, (E.chains v).has q = true) → ((E.chains u).links v).isSome = true) →
      Emb.flipBack P E vnu u cs = .ok E' → Arises P R C E'
  | place {E E' u wb cs S S' got} : Arises P R C E → u < P.nv → VnOK P S →
      E.chains u = Chain.empty u → (∀ v, v < P.N → (E.chains v).links u = none) →
      Scratch.findChain P C wb cs u E S = .ok (E', S', got) → Arises P R C E'
  | short {E E' u cs S S'} : Arises P R C E → u < P.nv → VnOK P S →
      (∀ v ∈ P.vn u, (∃ q, (E.chains v).has q = true) → ((E.chains u).links v).isSome = true) →
      Scratch.findShort P cs u E S = .ok (E', S') → Arises P R C E'
  /-- freezing, failing to place, and thawing -/
  | undo {E E1 E2 E3 u n wb cs S S'} : Arises P R C E → u < P.nv → VnOK P S →
      Emb.freezeOut P E u = .ok (E1, n) → Scratch.findChain P C wb cs u E1 S = .ok (E2, S', false) →
      Emb.thawBack P E2 u = .ok E3 → Arises P R C E3

variable {P : Prob} {R : Nat → Nat → Prop} {C : Cfg} {E : Emb}

theorem TornOut.clean {E E' : Emb} {u : Nat} (ht : TornOut P E E' u) :
    ∀ v, v < P.N → (E'.chains v).links u = none := by
  intro v hv
  by_cases hvu : v = u
  · subst hvu; rw [ht.own]; rfl
  · rw [ht.links v hv hvu]; simp

theorem Ok.of_eq {α : Type} {m : M α} {Q : α → Prop} {a : α} (h : Ok m Q) (e : m = .ok a) : Q a := by
  obtain ⟨b, hb, hq⟩ := h
  rw [e] at hb; cases hb; exact hq

theorem Arises.inv (wf : P.WF) (hR : Dom P R) (he : P.Even) (h : Arises P R C E) : EInv P R E := by
  induction h with
  | load hi hc => exact (EInv.copy empty_exact (fun _ _ => rfl) ((construct_shape wf hR hi).of_eq hc).1).1
  | assign _ _ h1 h2 => exact (EInv.copy h1.exact h1.lab h2.toShape).1
  | reload hi hc _ h1 => exact (EInv.copy h1.exact h1.lab ((construct_shape wf hR hi).of_eq hc).1).1
  | tear _ hu hp ht ih => exact ((ih.tearOut wf hu (fun v => hp.mem_iff)).of_eq ht).1
  | freeze _ hu ht ih => exact ((ih.freezeOut wf hu).of_eq ht).1
  | steal _ hu hp ht ih => exact ((ih.stealAll wf hR hu (fun v hv => hp.mem_iff.1 hv)).of_eq ht).1
  | flip _ hu hp hl ht ih => exact ((ih.flipBack wf hR hu (fun v hv => hp.mem_iff.1 hv) hl).of_eq ht).1
  | @place E E' u wb cs S S' got _ hu hS hown hno ht ih =>
    have := (findChain_spec wf hR he hu ih hown hno hS).of_eq ht
    cases got with
    | false => have h1 := this.2.1 rfl; dsimp only at h1; rw [h1]; exact ih
    | true => exact (this.2.2 rfl).1
  | short _ hu hS hl ht ih => exact ((findShort_spec wf hR he hu ih hS hl).of_eq ht).2.1
  | undo _ hu hS hf hg ht ih =>
    obtain ⟨f1, f2, f3, _⟩ := (ih.freezeOut wf hu).of_eq hf
    have := ((findChain_spec wf hR he hu f1 f2.own f2.clean hS).of_eq hg).2.1 rfl
    dsimp only at this
    subst this
    exact ((f1.thawBack wf hu f2.own f2.clean f3).of_eq ht).1

/-- The number of chains that contain `q`. -/
def Spec.uses (P : Prob) (E : Emb) (q : Nat) : Nat :=
  (List.range P.N).countP fun v => decide (q ∈ (E.chains v).keys P.Q)

theorem uses_eq (h : EInv P R E) (q : Nat) : Spec.uses P E q = E.fill P q := by
  unfold Spec.uses Emb.fill
  rw [cnt_eq_countP]
  apply List.countP_congr
  intro v hv
  have hv := List.mem_range.1 hv
  simp only [Chain.keys, List.mem_filter, List.mem_range, decide_eq_true_eq]
  exact ⟨fun h => h.2, fun hh => ⟨(h.cinv v hv).has_lt hh, hh⟩⟩

/-- **C06.** In every embedding that arises in a run the recorded fill of each qubit is the
number of chains that contain it; the statistics say "embedded" exactly when no free qubit
is in two chains; otherwise they list, for each `k ≥ 2` up to the largest fill, how many
free qubits are in exactly `k` chains; if embedded they list, for each `k`, how many free
variables have chains of `k` qubits. -/
theorem C06_fills_exact (wf : P.WF) (hR : Dom P R) (he : P.Even) (h : Arises P R C E) :
    (∀ q, E.w q = Spec.uses P E q) ∧
    ∃ emb stats, E.statistics P = .ok (emb, stats) ∧
      (emb = true ↔ ∀ q, q < P.nq → Spec.uses P E q ≤ 1) ∧
      (emb = false → (∀ q, q < P.nq → Spec.uses P E q < 2 + stats.length) ∧
        (∃ q, q < P.nq ∧ Spec.uses P E q = 1 + stats.length) ∧
        ∀ k c, stats[k]? = some c → c = (List.range P.nq).countP fun q => decide (Spec.uses P E q = 2 + k)) ∧
      (emb = true → (∀ v, v < P.nv → ((E.chains v).keys P.Q).length < stats.length) ∧
        ∀ k c, stats[k]? = some c →
          c = (List.range P.nv).countP fun v => decide (((E.chains v).keys P.Q).length = k)) := by
  have hE := h.inv wf hR he
  have hu : Spec.uses P E = E.fill P := funext (uses_eq hE)
  have hsz : ∀ v, E.chainsize P v = ((E.chains v).keys P.Q).length := by
    intro v
    simp only [Emb.chainsize, Chain.size, Chain.keys]
    rw [cnt_eq_countP, List.countP_eq_length_filter]
  refine ⟨fun q => by rw [hu]; exact hE.exact q, ?_⟩
  obtain ⟨⟨emb, stats⟩, hst, ok⟩ := statistics_spec (P := P) hE.exact
  refine ⟨emb, stats, hst, by rw [hu]; exact ok.flag, ?_, ?_⟩
  · intro hf
    obtain ⟨h1, h2, q, hq, hq2⟩ := ok.over hf
    refine ⟨by rw [hu]; exact h1.le, ⟨q, hq, by rw [hu]; dsimp only at hq2; omega⟩, ?_⟩
    intro k c hk
    rw [h1.entry k c hk, cnt_eq_countP, hu]
  · intro ht
    obtain ⟨h1, _⟩ := ok.lens ht
    refine ⟨fun v hv => by have := h1.le v hv; rw [hsz] at this; dsimp only at this; omega, ?_⟩
    intro k c hk
    rw [h1.entry k c hk, cnt_eq_countP]
    apply List.countP_congr
    intro v _
    rw [hsz]; simp

/-- Chains for `u` are built, along any recorded paths, and torn out, any number of
times. -/
inductive Rebuilds (P : Prob) (u : Nat) : Emb → Emb → Prop
  | none {A} : Rebuilds P u A A
  | round {A B G B' vnu q par dist vis t t'} : Rebuilds P u A B → vnu.Perm (P.vn u) →
      Emb.constructSteiner P B vnu u q par dist vis t = .ok (G, t') → Emb.tearOut G vnu u = .ok B' →
      Rebuilds P u A B'

/-- **C07.** Freezing the chain of a variable succeeds in every embedding that arises, and
thawing it, even after other chains for the variable were built and torn out, succeeds and
restores every chain, every link and every fill. -/
theorem C07_undo_restores (wf : P.WF) (hR : Dom P R) (he : P.Even) (h : Arises P R C E) {u : Nat} (hu : u < P.nv) :
    ∃ E1, Emb.freezeOut P E u = .ok (E1, ((E.chains u).keys P.Q).length) ∧
      E1.chains u = Chain.empty u ∧
      ∀ E1', Rebuilds P u E1 E1' →
        ∃ E2, Emb.thawBack P E1' u = .ok E2 ∧ E2.chains = E.chains ∧ E2.w = E.w := by
  have hE := h.inv wf hR he
  have huN : u < P.N := by unfold Prob.N; omega
  obtain ⟨⟨E1, n⟩, hf, f1, f2, f3, f4, f5, f6⟩ := hE.freezeOut wf hu
  dsimp only at *
  have hn : n = ((E.chains u).keys P.Q).length := by
    rw [f6]; simp only [Emb.chainsize, Chain.size, Chain.keys]
    rw [cnt_eq_countP, List.countP_eq_length_filter]
  refine ⟨E1, by rw [hf, hn], f2.own, ?_⟩
  intro E1' hr
  have : E1' = E1 := by
    induction hr with
    | none => rfl
    | @round F G E' vnu q par dist vis t t' _ hp hb ht ih =>
      subst ih
      refine build_tear ((hp.nodup_iff).2 (wf.vn_nodup u hu)) ?_ f2.own ?_ hb ht
      · intro hc; exact wf.vn_irr u hu (hp.mem_iff.1 hc)
      · intro v hv; exact f2.clean v (wf.vn_lt u v hu (hp.mem_iff.1 hv))
  subst this
  obtain ⟨E2, ht, _⟩ := f1.thawBack wf hu f2.own f2.clean f3
  obtain ⟨a, b⟩ := freeze_thaw (hE.lab u huN) hf ht
  exact ⟨E2, ht, funext a, b⟩

/-! ### a concrete history -/

namespace Demo

/-- Two joined variables on a path of four qubits. -/
def P0 : Prob :=
  { nv := 2, nf := 0, nq := 4, nr := 0
    qn := fun q => if q = 0 then [1] else if q = 1 then [0, 2] else if q = 2 then [1, 3] else [2]
    vn := fun v => if v = 0 then [1] else [0]
    accepts := fun _ _ => true, fixedChain := fun _ => [] }

def R0 (_ q : Nat) : Prop := q < 4

theorem P0_wf : P0.WF := by
  have h2 : ∀ u, u < P0.nv → u = 0 ∨ u = 1 := fun u (hu : u < 2) => by omega
  have h4 : ∀ q, q < P0.Q → q = 0 ∨ q = 1 ∨ q = 2 ∨ q = 3 := fun q (hu : q < 4) => by omega
  have hN : P0.N = 2 := rfl
  have hv : P0.nv = 2 := rfl
  refine ⟨by decide, ?_, ?_, ?_, ?_, ?_, ?_, ?_, ?_, by decide⟩
  · intro q p hq
    rcases h4 q hq with rfl | rfl | rfl | rfl <;> simp [P0] <;> omega
  · intro u v hu
    rcases h2 u hu with rfl | rfl <;> simp [P0, Prob.N] <;> omega
  · intro u hu
    rcases h2 u hu with rfl | rfl <;> simp [P0]
  · intro u hu
    rcases h2 u hu with rfl | rfl <;> simp [P0]
  · intro u v hu hv
    rcases h2 u hu with rfl | rfl <;> rcases h2 v hv with rfl | rfl <;> simp [P0]
  all_goals intros; omega

theorem P0_dom : Dom P0 R0 := by
  refine ⟨fun v q _ h => h, fun a b q _ _ _ h _ => h, fun u q _ h _ => h, fun u v q _ _ h _ => h⟩

theorem P0_even : P0.Even := fun _ _ _ _ _ _ _ _ _ => Or.inl rfl

def init0 : List (Nat × List Nat) := [(0, [0, 1]), (1, [1, 2])]

theorem init0_ok : InitOK P0 R0 init0 := by
  refine ⟨by decide, by decide, ?_, by decide⟩
  show ∀ x ∈ init0, ∀ q ∈ x.2, q < 4
  decide

/-- Two overlapping chains, loaded. -/
theorem arises0 : ∃ E0 t', Emb.construct P0 init0 tape0 = .ok (E0, t') ∧ Arises P0 R0 cfg (Emb.copy P0 Emb.empty E0) := by
  obtain ⟨⟨E0, t'⟩, h, _⟩ := construct_shape P0_wf P0_dom (t := tape0) init0_ok
  exact ⟨E0, t', h, .load init0_ok h⟩

/-- Its statistics: one qubit is in two chains. -/
theorem stats0 : (match Emb.construct P0 init0 tape0 with
    | .ok (E0, _) => (match (Emb.copy P0 Emb.empty E0).statistics P0 with
      | .ok r => decide (r = (false, [1]))
      | .error _ => false)
    | .error _ => false) = true := by decide +kernel

/-- Freezing a chain, building another (on the qubits 3 and 2) and tearing it out again. -/
theorem rebuild0 : (match Emb.construct P0 init0 tape0 with
    | .ok (E0, _) => (match Emb.freezeOut P0 (Emb.copy P0 Emb.empty E0) 0 with
      | .ok (E1, n) => (match Emb.constructSteiner P0 E1 [1] 0 3 (fun _ q => if q = 3 then some 2 else none)
          (fun _ _ => some 0) (fun _ _ => 1) tape0 with
        | .ok (G, _) => (match Emb.tearOut G [1] 0 with
          | .ok _ => decide (n = 2 ∧ (G.chains 0).keys 4 = [3] ∧ G.L 0 1 = true)
          | .error _ => false)
        | .error _ => false)
      | .error _ => false)
    | .error _ => false) = true := by decide +kernel

end Demo

example : ∃ E, Arises Demo.P0 Demo.R0 Demo.cfg E ∧ (∀ q, E.w q = Spec.uses Demo.P0 E q) :=
  let ⟨E0, _, _, h⟩ := Demo.arises0
  ⟨Emb.copy Demo.P0 Emb.empty E0, h, (C06_fills_exact Demo.P0_wf Demo.P0_dom Demo.P0_even h).1⟩

example : ∃ E E1, Arises Demo.P0 Demo.R0 Demo.cfg E ∧ Emb.freezeOut Demo.P0 E 0 = .ok (E1, ((E.chains 0).keys 4).length) :=
  let ⟨E0, _, _, h⟩ := Demo.arises0
  let ⟨E1, h1, _⟩ := C07_undo_restores Demo.P0_wf Demo.P0_dom Demo.P0_even h (u := 0) (by decide)
  ⟨Emb.copy Demo.P0 Emb.empty E0, E1, h, h1⟩

end MM
