import Verif.Props.SelfCheck
import Verif.Props.Improve

/-! C125: exactly which states the self-check of debugging builds accepts. -/

namespace MM

open Relation

/-- The parent of a qubit in a chain. -/
def Spec.up (c : Chain) (q : Nat) : Nat :=
  match c.data q with
  | none => q
  | some e => e.parent

/-- What the self-check looks at, in words of the stored data. -/
structure Spec.Accepts (P : Prob) (init emb : Bool) (E : Emb) : Prop where
  /-- parents are neighbours -/
  parents : ∀ v q e, v < P.nv → (E.chains v).data q = some e → e.parent = q ∨ e.parent ∈ P.qn q ∨ q ∈ P.qn e.parent
  /-- links and parents are in the chain -/
  inside : ∀ v, v < P.N → (∀ x p, (E.chains v).links x = some p → ∃ e, (E.chains v).data p = some e) ∧
    ∀ q e, (E.chains v).data q = some e → ∃ e', (E.chains v).data e.parent = some e'
  /-- counts are right -/
  counts : ∀ v p e, v < P.N → (E.chains v).data p = some e → Spec.references P.N P.Q (E.chains v) p ≠ 0 →
    e.refs = Spec.references P.N P.Q (E.chains v) p
  /-- parents lead to a qubit that is its own parent -/
  ends : ∀ v q e, v < P.N → (E.chains v).data q = some e →
    ∃ j, j ≤ P.nq + 1 ∧ (Spec.up (E.chains v))^[j + 1] q = (Spec.up (E.chains v))^[j] q
  /-- at most one chain is empty -/
  empty : init = true → ∀ u v, u < P.N → v < P.N → (∀ q, (E.chains u).data q = none) → (∀ q, (E.chains v).data q = none) → u = v
  /-- no links from and to an empty chain -/
  unlinked : ∀ v u, v < P.nv → u ∈ P.vn v → (∃ q e, (E.chains v).data q = some e) → (∀ q, (E.chains u).data q = none) →
    (E.chains u).links v = none ∧ (E.chains v).links u = none
  /-- links between chains of neighbours -/
  linked : init = true → ∀ v u, v < P.nv → u ∈ P.vn v → (∃ q e, (E.chains v).data q = some e) → (∃ q e, (E.chains u).data q = some e) →
    (E.chains u).links v ≠ none ∧ (E.chains v).links u ≠ none
  /-- links are couplers, or one qubit -/
  couplers : ∀ v u a b, v < P.nv → u ∈ P.vn v → (E.chains v).links u = some a → (E.chains u).links v = some b →
    a = b ∨ b ∈ P.qn a ∨ a ∈ P.qn b
  /-- rooted chains are connected -/
  connected : ∀ v r q e, v < P.nv → (E.chains v).links v = some r → (E.chains v).data q = some e →
    ReflTransGen (fun a b => b ∈ P.qn a ∧ ∃ e, (E.chains v).data b = some e) r q
  /-- fills are right -/
  fills : ∀ q, q < P.nq → E.w q = ((List.range P.nv).filter fun v => ((E.chains v).data q).isSome).length
  /-- chains are disjoint -/
  apart : emb = true → ∀ q u v, q < P.nq → u < P.nv → v < P.nv → (∃ e, (E.chains u).data q = some e) →
    (∃ e, (E.chains v).data q = some e) → u = v

namespace Diag

theorem cnt_le_one_iff {p : Nat → Bool} {n : Nat} : cnt p n ≤ 1 ↔ ∀ i j, i < n → j < n → p i = true → p j = true → i = j := by
  refine ⟨fun h i j hi hj a b => ?_, cnt_le_one_of⟩
  by_contra hc
  have := cnt_two hi hj hc a b
  omega

theorem climb_iff {c : Chain} (hpin : ∀ q e, c.data q = some e → c.has e.parent = true) :
    ∀ n last z, Spec.up c last = z → c.has z = true →
      (climb c n last z = .ok false ↔ ∃ j, j ≤ n ∧ (Spec.up c)^[j + 1] last = (Spec.up c)^[j] last) := by
  intro n
  induction n with
  | zero =>
    intro last z hz _
    unfold climb
    constructor
    · intro h
      refine ⟨0, le_rfl, ?_⟩
      simp only [Except.ok.injEq, bne_eq_false_iff_eq] at h
      simp [hz, h]
    · rintro ⟨j, hj, h⟩
      obtain rfl : j = 0 := by omega
      simp only [zero_add, Function.iterate_one, Function.iterate_zero, id_eq] at h
      simp [← hz, h]
  | succ n ih =>
    intro last z hz hh
    unfold climb
    by_cases hzl : z = last
    · rw [if_pos hzl]
      refine iff_of_true rfl ⟨0, by omega, ?_⟩
      simp [hz, hzl]
    · rw [if_neg hzl]
      obtain ⟨e, he⟩ := Chain.has_iff.1 hh
      rw [he]
      simp only
      rw [ih z e.parent (by unfold Spec.up; rw [he]) (hpin z e he)]
      constructor
      · rintro ⟨j, hj, h⟩
        refine ⟨j + 1, by omega, ?_⟩
        rw [Function.iterate_succ_apply, hz, h, Function.iterate_succ_apply, hz]
      · rintro ⟨j, hj, h⟩
        cases j with
        | zero =>
          simp only [zero_add, Function.iterate_one, Function.iterate_zero, id_eq] at h
          exact absurd (hz.symm.trans h) hzl
        | succ j =>
          refine ⟨j, by omega, ?_⟩
          have e1 : (Spec.up c)^[j + 1 + 1] last = (Spec.up c)^[j + 1] z := by rw [Function.iterate_succ_apply, hz]
          have e2 : (Spec.up c)^[j + 1] last = (Spec.up c)^[j] z := by rw [Function.iterate_succ_apply, hz]
          rw [← e1, ← e2]
          exact h

variable {P : Prob} {E : Emb}

theorem badChain_iff {v : Nat} : badChain P E v = .ok false ↔
    badParents P E v = .ok false ∧ (E.chains v).runDiagnostic P.N P.Q = 0 ∧
      ∀ q ∈ (E.chains v).keys P.Q, badCycle P (E.chains v) q = .ok false := by
  rw [← anyErr_false]
  unfold badChain
  cases badParents P E v with
  | error e => simp [bind, Except.bind]
  | ok a =>
    simp only [bind, Except.bind]
    split_ifs with h
    · cases anyErr ((E.chains v).keys P.Q) (badCycle P (E.chains v)) with
      | error e => simp
      | ok b => cases a <;> cases b <;> simp [h]
    · simp [h]

theorem badLinks_iff {init : Bool} {v : Nat} : badLinks P init E v = .ok false ↔
    (E.chainsize P v ≠ 0 → (∀ u ∈ P.vn v, badLink P init E v u = .ok false) ∧ badRoot P E v = .ok false) := by
  rw [← anyErr_false]
  unfold badLinks
  split_ifs with h
  · simp [h]
  · cases anyErr (P.vn v) (badLink P init E v) with
    | error e => simp [bind, Except.bind, h]
    | ok a =>
      simp only [bind, Except.bind]
      cases badRoot P E v with
      | error e => simp [h]
      | ok b => cases a <;> cases b <;> simp [h]

theorem badFill_iff {emb : Bool} {q : Nat} : badFill P emb E q = false ↔
    E.w q = ((List.range P.nv).filter fun v => ((E.chains v).data q).isSome).length ∧
    (emb = true → ∀ u v, u < P.nv → v < P.nv → (∃ e, (E.chains u).data q = some e) → (∃ e, (E.chains v).data q = some e) → u = v) := by
  have : ((List.range P.nv).filter fun v => ((E.chains v).data q).isSome).length = cnt (fun v => (E.chains v).has q) P.nv :=
    length_filter_range (fun v => (E.chains v).has q) P.nv
  rw [this]
  have h2 := cnt_le_one_iff (p := fun v => (E.chains v).has q) (n := P.nv)
  simp only [Chain.has_iff] at h2
  rw [← h2]
  unfold badFill
  simp only
  generalize cnt (fun v => (E.chains v).has q) P.nv = t
  rw [Bool.or_eq_false_iff, decide_eq_false_iff_not, not_not]
  refine and_congr ⟨Eq.symm, Eq.symm⟩ ?_
  cases emb <;> simp

end Diag

variable {P : Prob} {E : Emb}

/-- **C125.** The self-check accepts a state exactly if all of `Spec.Accepts` holds of it.

Assumed: the problem is as handed to the search (`C124_tidy`), qubit and variable numbers are in range and
chains of free variables and their roots use free qubits; otherwise the check itself reads outside of its tables. -/
theorem C125_exact (wf : P.WF) (ht : Diag.Tidy P) {init emb : Bool}
    (hd : ∀ v q e, v < P.N → (E.chains v).data q = some e → q < P.Q ∧ e.parent < P.Q)
    (hl : ∀ v x q, v < P.N → (E.chains v).links x = some q → x < P.N ∧ q < P.Q)
    (hr : ∀ v r, v < P.nv → (E.chains v).links v = some r → r < P.nq) :
    Diag.longDiagnostic P init emb E = .ok false ↔ Spec.Accepts P init emb E := by
  have hNv : ∀ v, v < P.nv → v < P.N := fun v hv => by unfold Prob.N; omega
  have hne : ∀ v, v < P.N → (E.chainsize P v ≠ 0 ↔ ∃ q e, (E.chains v).data q = some e) := by
    intro v hv
    constructor
    · intro h
      obtain ⟨q, _, hq⟩ := cnt_exists (Nat.pos_of_ne_zero h)
      exact ⟨q, Chain.has_iff.1 hq⟩
    · rintro ⟨q, e, he⟩
      have := cnt_pos (p := (E.chains v).has) (hd v q e hv he).1 (Chain.has_iff.2 ⟨e, he⟩)
      unfold Emb.chainsize Chain.size; omega
  have hem : ∀ v, v < P.N → (E.chainsize P v = 0 ↔ ∀ q, (E.chains v).data q = none) := by
    intro v hv
    have := hne v hv
    constructor
    · intro h q
      cases hq : (E.chains v).data q with
      | none => rfl
      | some e => exact absurd h (this.2 ⟨q, e, hq⟩)
    · intro h
      by_contra hc
      obtain ⟨q, e, he⟩ := this.1 hc
      rw [h q] at he; cases he
  -- the single chain
  have hchain : ∀ v, v < P.N → ((E.chains v).runDiagnostic P.N P.Q = 0 ↔
      ((∀ x p, (E.chains v).links x = some p → ∃ e, (E.chains v).data p = some e) ∧
        ∀ q e, (E.chains v).data q = some e → ∃ e', (E.chains v).data e.parent = some e') ∧
      ∀ p e, (E.chains v).data p = some e → Spec.references P.N P.Q (E.chains v) p ≠ 0 →
        e.refs = Spec.references P.N P.Q (E.chains v) p) := by
    intro v hv
    obtain ⟨r1, r2, r3⟩ := C124_report (nv := P.N) (nq := P.Q) (c := E.chains v) (fun x q => hl v x q hv) (fun q e => hd v q e hv)
    have h0 : (E.chains v).runDiagnostic P.N P.Q = 0 ↔ ¬ ((E.chains v).runDiagnostic P.N P.Q &&& 1 ≠ 0) ∧
        ¬ ((E.chains v).runDiagnostic P.N P.Q &&& 2 ≠ 0) := by
      generalize (E.chains v).runDiagnostic P.N P.Q = n at r3
      have : n = 0 ∨ n = 1 ∨ n = 2 ∨ n = 3 := by omega
      rcases this with rfl | rfl | rfl | rfl <;> decide
    rw [h0, r1, r2]
    constructor
    · rintro ⟨a, b⟩
      refine ⟨⟨fun x p h => ?_, fun q e h => ?_⟩, fun p e h h' => ?_⟩
      · cases hp : (E.chains v).data p with
        | none => exact absurd ⟨p, hp, Or.inl ⟨x, h⟩⟩ a
        | some e => exact ⟨e, rfl⟩
      · cases hp : (E.chains v).data e.parent with
        | none => exact absurd ⟨_, hp, Or.inr ⟨q, e, h, rfl⟩⟩ a
        | some e => exact ⟨e, rfl⟩
      · by_contra hc
        exact b ⟨p, e, h, h', hc⟩
    · rintro ⟨⟨a, b⟩, c⟩
      constructor
      · rintro ⟨p, hp, ⟨x, h⟩ | ⟨q, e, h, rfl⟩⟩
        · obtain ⟨e, he⟩ := a x p h
          rw [hp] at he; cases he
        · obtain ⟨e, he⟩ := b q e h
          rw [hp] at he; cases he
      · rintro ⟨p, e, h, h', hc⟩
        exact hc (c p e h h')
  have hparents : ∀ v, v < P.nv → (Diag.badParents P E v = .ok false ↔ ∀ q e, (E.chains v).data q = some e →
      e.parent = q ∨ e.parent ∈ P.qn q ∨ q ∈ P.qn e.parent) := by
    intro v hv
    unfold Diag.badParents
    rw [if_neg (by unfold Prob.fixed; simpa using hv), Diag.anyErr_false]
    constructor
    · intro h q e he
      have hq := hd v q e (hNv v hv) he
      have := h q (Diag.mem_keys.2 ⟨hq.1, Chain.has_iff.2 ⟨e, he⟩⟩)
      unfold Diag.badParent at this
      rw [he] at this
      simp only at this
      split_ifs at this with h1 h2
      · exact Or.inl h1
      · simp only [Except.ok.injEq, Bool.not_eq_false', Bool.or_eq_true, List.contains_eq_mem, decide_eq_true_eq] at this
        exact Or.inr this
    · intro h q hq
      obtain ⟨e, he⟩ := Chain.has_iff.1 (Diag.mem_keys.1 hq).2
      have hq' := hd v q e (hNv v hv) he
      unfold Diag.badParent
      rw [he]
      simp only
      split_ifs with h1 h2
      · rfl
      · omega
      · rcases h q e he with h3 | h3 | h3
        · exact absurd h3 h1
        · simp [h3]
        · simp [h3]
  have hcycle : ∀ v, v < P.N → (∀ q e, (E.chains v).data q = some e → ∃ e', (E.chains v).data e.parent = some e') →
      ((∀ q ∈ (E.chains v).keys P.Q, Diag.badCycle P (E.chains v) q = .ok false) ↔ ∀ q e, (E.chains v).data q = some e →
        ∃ j, j ≤ P.nq + 1 ∧ (Spec.up (E.chains v))^[j + 1] q = (Spec.up (E.chains v))^[j] q) := by
    intro v hv hin
    have key : ∀ q e, (E.chains v).data q = some e → (Diag.badCycle P (E.chains v) q = .ok false ↔
        ∃ j, j ≤ P.nq + 1 ∧ (Spec.up (E.chains v))^[j + 1] q = (Spec.up (E.chains v))^[j] q) := by
      intro q e he
      unfold Diag.badCycle
      rw [he]
      exact Diag.climb_iff (fun q e h => Chain.has_iff.2 (hin q e h)) _ q e.parent (by unfold Spec.up; rw [he])
        (Chain.has_iff.2 (hin q e he))
    constructor
    · intro h q e he
      exact (key q e he).1 (h q (Diag.mem_keys.2 ⟨(hd v q e hv he).1, Chain.has_iff.2 ⟨e, he⟩⟩))
    · intro h q hq
      obtain ⟨e, he⟩ := Chain.has_iff.1 (Diag.mem_keys.1 hq).2
      exact (key q e he).2 (h q e he)
  have hpath : ∀ v r q, ReflTransGen (Diag.Step P (E.chains v)) r q ↔
      ReflTransGen (fun a b => b ∈ P.qn a ∧ ∃ e, (E.chains v).data b = some e) r q := by
    intro v r q
    constructor
    · intro h
      induction h with
      | refl => exact .refl
      | tail _ hs ih => exact ih.tail ⟨hs.1, Chain.has_iff.1 hs.2⟩
    · intro h
      induction h with
      | refl => exact .refl
      | tail _ hs ih => exact ih.tail ⟨hs.1, Chain.has_iff.2 hs.2⟩
  rw [Diag.long_false]
  constructor
  · rintro ⟨h1, h2, h3, h4⟩
    have hin : ∀ v, v < P.N → _ := fun v hv => (hchain v hv).1 (Diag.badChain_iff.1 (h1 v hv)).2.1
    have hlk : ∀ v u, v < P.nv → u ∈ P.vn v → (∃ q e, (E.chains v).data q = some e) → Diag.badLink P init E v u = .ok false :=
      fun v u hv hu hn => (Diag.badLinks_iff.1 (h3 v (hNv v hv)) ((hne v (hNv v hv)).2 hn)).1 u hu
    refine ⟨?_, fun v hv => (hin v hv).1, fun v p e hv => (hin v hv).2 p e, ?_, ?_, ?_, ?_, ?_, ?_, ?_, ?_⟩
    · intro v q e hv he
      exact (hparents v hv).1 (Diag.badChain_iff.1 (h1 v (hNv v hv))).1 q e he
    · intro v q e hv he
      exact (hcycle v hv (hin v hv).1.2).1 (Diag.badChain_iff.1 (h1 v hv)).2.2 q e he
    · intro hi u v hu hv a b
      exact Diag.cnt_le_one_iff.1 (h2 hi) u v hu hv (by simpa using (hem u hu).2 a) (by simpa using (hem v hv).2 b)
    · intro v u hv hu hn hz
      have huN := wf.vn_lt v u hv hu
      have := hlk v u hv hu hn
      unfold Diag.badLink at this
      rw [if_neg (by omega)] at this
      simp only at this
      rw [if_pos ((hem u huN).2 hz)] at this
      simpa using this
    · intro hi v u hv hu hn hm
      have huN := wf.vn_lt v u hv hu
      have := hlk v u hv hu hn
      unfold Diag.badLink at this
      rw [if_neg (by omega)] at this
      simp only at this
      rw [if_neg ((hne u huN).2 hm), hi] at this
      cases ha : (E.chains v).links u <;> cases hb : (E.chains u).links v <;> rw [ha, hb] at this <;> simp at this ⊢
    · intro v u a b hv hu ha hb
      have huN := wf.vn_lt v u hv hu
      obtain ⟨e, he⟩ := (hin v (hNv v hv)).1.1 u a ha
      obtain ⟨e', he'⟩ := (hin u huN).1.1 v b hb
      have := hlk v u hv hu ⟨a, e, he⟩
      unfold Diag.badLink at this
      rw [if_neg (by omega)] at this
      simp only at this
      rw [if_neg ((hne u huN).2 ⟨b, e', he'⟩), ha, hb] at this
      simp only at this
      rw [Chain.has_iff.2 ⟨e, he⟩, Chain.has_iff.2 ⟨e', he'⟩] at this
      have hq1 := (hd v a e (hNv v hv) he).1
      have hq2 := (hd u b e' huN he').1
      rw [if_pos (by rfl), if_neg (by omega)] at this
      by_contra hc
      push Not at hc
      simp [hc.1, hc.2.1, hc.2.2] at this
    · intro v r q e hv hroot he
      obtain ⟨er, her⟩ := (hin v (hNv v hv)).1.1 v r hroot
      have hb := (Diag.badLinks_iff.1 (h3 v (hNv v hv)) ((hne v (hNv v hv)).2 ⟨q, e, he⟩)).2
      exact (hpath v r q).1 ((Diag.badRoot_iff wf hv hroot (hr v r hv hroot) (Chain.has_iff.2 ⟨er, her⟩)).1 hb q
        (hd v q e (hNv v hv) he).1 (Chain.has_iff.2 ⟨e, he⟩))
    · intro q hq
      exact (Diag.badFill_iff.1 (h4 q hq)).1
    · intro hm q u v hq hu hv
      exact (Diag.badFill_iff.1 (h4 q hq)).2 hm u v hu hv
  · intro h
    refine ⟨fun v hv => ?_, fun hi => ?_, fun v hv => ?_, fun q hq => ?_⟩
    · refine Diag.badChain_iff.2 ⟨?_, (hchain v hv).2 ⟨h.inside v hv, fun p e => h.counts v p e hv⟩,
        (hcycle v hv (h.inside v hv).2).2 fun q e => h.ends v q e hv⟩
      by_cases hf : P.nv ≤ v
      · unfold Diag.badParents
        rw [if_pos (by unfold Prob.fixed; simpa using hf)]
      · exact (hparents v (by omega)).2 fun q e => h.parents v q e (by omega)
    · refine Diag.cnt_le_one_iff.2 fun u v hu hv a b => ?_
      exact h.empty hi u v hu hv ((hem u hu).1 (by simpa using a)) ((hem v hv).1 (by simpa using b))
    · rw [Diag.badLinks_iff]
      intro hs
      have hn := (hne v hv).1 hs
      by_cases hf : P.nv ≤ v
      · refine ⟨by rw [ht.vn_fixed v hf hv]; simp, ?_⟩
        unfold Diag.badRoot
        cases (E.chains v).links v with
        | none => rfl
        | some r =>
          simp only
          rw [if_pos (by unfold Prob.fixed; simpa using hf)]
      · have hv' : v < P.nv := by omega
        refine ⟨fun u hu => ?_, ?_⟩
        · have huN := wf.vn_lt v u hv' hu
          unfold Diag.badLink
          rw [if_neg (by omega)]
          simp only
          by_cases hz : E.chainsize P u = 0
          · rw [if_pos hz]
            obtain ⟨a, b⟩ := h.unlinked v u hv' hu hn ((hem u huN).1 hz)
            rw [a, b]; rfl
          · rw [if_neg hz]
            have hm := (hne u huN).1 hz
            have hlinked := fun hi => h.linked hi v u hv' hu hn hm
            cases ha : (E.chains v).links u with
            | none =>
              have hi : init = false := by
                cases init with
                | false => rfl
                | true => exact absurd ha (hlinked rfl).2
              cases hb : (E.chains u).links v with
              | none => simp [hi]
              | some b =>
                have := Chain.has_iff.2 ((h.inside u huN).1 v b hb)
                simp [hi, this]
            | some a =>
              have hha := Chain.has_iff.2 ((h.inside v hv).1 u a ha)
              cases hb : (E.chains u).links v with
              | none =>
                have hi : init = false := by
                  cases init with
                  | false => rfl
                  | true => exact absurd hb (hlinked rfl).1
                simp [hi, hha]
              | some b =>
                have hhb := Chain.has_iff.2 ((h.inside u huN).1 v b hb)
                have hq1 := (hl v u a hv ha).2
                have hq2 := (hl u v b huN hb).2
                simp only [hha, hhb, Bool.and_self, if_true]
                rw [if_neg (by omega)]
                rcases h.couplers v u a b hv' hu ha hb with rfl | h' | h'
                · simp
                · simp [h']
                · simp [h']
        · cases hroot : (E.chains v).links v with
          | none => unfold Diag.badRoot; rw [hroot]
          | some r =>
            refine (Diag.badRoot_iff wf hv' hroot (hr v r hv' hroot) (Chain.has_iff.2 ((h.inside v hv).1 v r hroot))).2 ?_
            intro q _ hq
            obtain ⟨e, he⟩ := Chain.has_iff.1 hq
            exact (hpath v r q).2 (h.connected v r q e hv' hroot he)
    · exact Diag.badFill_iff.2 ⟨h.fills q hq, fun hm u v hu hv => h.apart hm q u v hq hu hv⟩

/-- The hypotheses are met by an embedding, which is accepted. -/
example : Spec.Accepts Demo.P0 true true Demo.sound := by
  have h2 : ∀ v, v < Demo.P0.N → v = 0 ∨ v = 1 := fun v (hv : v < 2) => by omega
  refine (C125_exact Demo.P0_wf Demo.P0_tidy ?_ ?_ ?_).1 Demo.sound_accepted
  · intro v q e hv he
    show q < 4 ∧ e.parent < 4
    rcases h2 v hv with rfl | rfl
    · change (if q = 0 then some (⟨0, 3⟩ : Entry) else if q = 1 then some ⟨0, 1⟩ else none) = some e at he
      split_ifs at he <;> cases he <;> simp <;> omega
    · change (if q = 2 then some (⟨2, 3⟩ : Entry) else none) = some e at he
      split_ifs at he <;> cases he <;> simp <;> omega
  · intro v x q hv he
    show x < 2 ∧ q < 4
    rcases h2 v hv with rfl | rfl
    · change (if x = 0 then some 0 else if x = 1 then some 1 else none) = some q at he
      split_ifs at he <;> cases he <;> omega
    · change (if x = 0 then some 2 else if x = 1 then some 2 else none) = some q at he
      split_ifs at he <;> cases he <;> omega
  · intro v r hv he
    show r < 4
    rcases h2 v hv with rfl | rfl
    · change (if 0 = 0 then some 0 else if 0 = 1 then some 1 else none) = some r at he
      cases he; omega
    · change (if 1 = 0 then some 2 else if 1 = 1 then some 2 else none) = some r at he
      cases he; omega

/-- **C124.** When a search ends, the self-check accepts the embedding it returns, with the flag "initialized" set and
the flag "embedded" as the search reports; unless the search was stopped before it had any embedding. -/
theorem C124_result {R : Nat → Nat → Prop} {C : Scratch.Cfg} {A : Params} (wf : P.WF) (ht : Diag.Tidy P) (hR : Dom P R)
    (he : P.Even) (hn : 0 < P.N) {init : List (Nat × List Nat)} (hi : InitOK P R init) {t : Tape} {X Y : Run}
    (hX : Run.new P init t = .ok X) {b : Bool} (h : Run.heuristic P C A X = .ok (Y, b)) :
    Diag.longDiagnostic P true b Y.best = .ok false ∨ (b = false ∧ Y.best = X.best ∧ A.Stops) := by
  have h0 := (Run.new_spec wf hR hi t).of_eq hX
  rcases heuristic_full (C := C) (A := A) wf hR he hn h0 with ⟨a, ha, k⟩ | ⟨_, ha⟩ | ⟨_, ha⟩
  · rw [h] at ha; cases ha
    obtain ⟨_, k2, k3 | k3⟩ := k
    · left
      obtain ⟨hE, hfull, hst⟩ := k3.best
      dsimp only at k2
      have hne : ∀ v, v < P.N → Y.best.NE v := by
        intro v hv
        by_cases hf : P.nv ≤ v
        · exact hE.fixed_NE wf hf hv
        · exact hE.L_ne hv (hfull v (by omega)).1
      refine Diag.long_ok wf ht hR hE ?_ ?_ ?_
      · intro _
        refine cnt_le_one_of fun u v hu hv a _ => ?_
        exact absurd (by simpa using a) ((hE.size_iff hu).2 (hne u hu))
      · intro _ v u hv hu _ _
        exact (hfull v hv).2 u hu
      · intro hb q hq
        rw [← Diag.cnt_free wf hE hq]
        exact hst.flag.1 (by rw [← k2]; exact hb) q hq
    · exact Or.inr k3
  · rw [h] at ha; cases ha
  · rw [h] at ha; cases ha

/-- A search that ends with an embedding. -/
theorem Demo.run_ends : ∃ X Y, Run.new Demo.P0 Demo.init0 Demo.tape0 = .ok X ∧
    Run.heuristic Demo.P0 Demo.cfg Demo.params X = .ok (Y, true) := by
  have : (match Run.new Demo.P0 Demo.init0 Demo.tape0 with
      | .ok X => (match Run.heuristic Demo.P0 Demo.cfg Demo.params X with
        | .ok (_, b) => b
        | .error _ => false)
      | .error _ => false) = true := by decide +kernel
  cases hX : Run.new Demo.P0 Demo.init0 Demo.tape0 with
  | error e => rw [hX] at this; cases this
  | ok X =>
    rw [hX] at this
    dsimp only at this
    cases hY : Run.heuristic Demo.P0 Demo.cfg Demo.params X with
    | error e => rw [hY] at this; cases this
    | ok r =>
      rw [hY] at this
      obtain ⟨Y, b⟩ := r
      dsimp only at this
      subst this
      exact ⟨X, Y, rfl, hY⟩

example : ∃ Y : Run, Diag.longDiagnostic Demo.P0 true true Y.best = .ok false := by
  obtain ⟨X, Y, hX, hY⟩ := Demo.run_ends
  rcases C124_result Demo.P0_wf Demo.P0_tidy Demo.P0_dom Demo.P0_even (by decide) Demo.init0_ok hX hY with h | ⟨h, _⟩
  · exact ⟨Y, h⟩
  · cases h

end MM
