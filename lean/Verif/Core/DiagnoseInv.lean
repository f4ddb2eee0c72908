import Verif.Core.Diagnose
import Verif.Core.EmbInv
import Mathlib.Logic.Relation
import Mathlib.Data.List.Perm.Subperm

/-! When the self-check of debugging builds accepts a state. -/

namespace MM
namespace Diag

open Chain (CInv zero Near)

/-! ### loops -/

theorem anyErr_false {l : List Nat} {f : Nat → M Bool} : anyErr l f = .ok false ↔ ∀ x ∈ l, f x = .ok false := by
  induction l with
  | nil => simp [anyErr]
  | cons x l ih =>
    simp only [anyErr, List.mem_cons, forall_eq_or_imp]
    cases hx : f x with
    | error e => simp [bind, Except.bind]
    | ok b =>
      cases hr : anyErr l f with
      | error e =>
        have : ¬ ∀ x ∈ l, f x = .ok false := fun h => by rw [ih.2 h] at hr; cases hr
        simp only [bind, Except.bind]
        constructor
        · intro h; cases h
        · intro h; exact absurd h.2 this
      | ok r =>
        rw [hr] at ih
        simp only [bind, Except.bind]
        rw [← ih]
        cases b <;> cases r <;> simp

theorem mem_keys {nq : Nat} {c : Chain} {q : Nat} : q ∈ c.keys nq ↔ q < nq ∧ c.has q = true := by
  simp [Chain.keys]

/-! ### the check of one chain -/

theorem foldl_code (A B : Nat → Bool) (l : List Nat) (a b : Bool) :
    l.foldl (fun err p => if A p then err ||| 1 else if B p then err ||| 2 else err)
      ((if a then 1 else 0) + (if b then 2 else 0)) =
    (if a || l.any A then 1 else 0) + (if b || l.any (fun p => !A p && B p) then 2 else 0) := by
  induction l generalizing a b with
  | nil => simp
  | cons p l ih =>
    rw [List.foldl_cons, List.any_cons, List.any_cons]
    by_cases hA : A p = true
    · rw [if_pos hA]
      have : (((if a then 1 else 0) + (if b then 2 else 0)) ||| 1 : Nat) = (if true then 1 else 0) + (if b then 2 else 0) := by
        cases a <;> cases b <;> rfl
      rw [this, ih]
      simp [hA]
    · rw [if_neg hA]
      by_cases hB : B p = true
      · rw [if_pos hB]
        have : (((if a then 1 else 0) + (if b then 2 else 0)) ||| 2 : Nat) = (if a then 1 else 0) + (if true then 2 else 0) := by
          cases a <;> cases b <;> rfl
        rw [this, ih]
        simp [hA, hB]
      · rw [if_neg hB, ih]
        simp [hA, hB]

/-- Number of references to `p`. -/
def refs (nv nq : Nat) (c : Chain) (p : Nat) : Nat := Chain.linkCnt nv c p + Chain.parCnt nq c p

theorem runDiagnostic_eq (nv nq : Nat) (c : Chain) :
    c.runDiagnostic nv nq =
      (if (List.range nq).any (fun p => refs nv nq c p != 0 && !c.has p) then 1 else 0) +
      (if (List.range nq).any (fun p => refs nv nq c p != 0 && (c.data p).any fun e => decide ((refs nv nq c p : Int) ≠ e.refs))
        then 2 else 0) := by
  have hpar : ∀ p, cnt (fun i => (c.data i).any (fun e => e.parent == p)) nq = Chain.parCnt nq c p := by
    intro p
    refine cnt_congr fun i _ => ?_
    unfold Chain.isPar
    cases c.data i <;> rfl
  have key := foldl_code (fun p => refs nv nq c p != 0 && !c.has p)
    (fun p => refs nv nq c p != 0 && (c.data p).any fun e => decide ((refs nv nq c p : Int) ≠ e.refs)) (List.range nq) false false
  rw [show ((if false then 1 else 0) + (if false then 2 else 0) : Nat) = 0 from rfl] at key
  rw [Bool.false_or, Bool.false_or] at key
  have h2 : ∀ p, (!(refs nv nq c p != 0 && !c.has p) && (refs nv nq c p != 0 && (c.data p).any fun e => decide ((refs nv nq c p : Int) ≠ e.refs)))
      = (refs nv nq c p != 0 && (c.data p).any fun e => decide ((refs nv nq c p : Int) ≠ e.refs)) := by
    intro p
    unfold Chain.has
    cases c.data p <;> cases (refs nv nq c p != 0) <;> simp
  simp only [h2] at key
  rw [← key]
  unfold Chain.runDiagnostic
  dsimp only
  congr 1
  funext err p
  have hr : cnt (fun x => c.links x == some p) nv + cnt (fun i => (c.data i).any (fun e => e.parent == p)) nq = refs nv nq c p := by
    rw [hpar]; rfl
  simp only [hr]
  by_cases h0 : refs nv nq c p = 0
  · simp [h0]
  · rw [if_neg h0]
    unfold Chain.has
    cases hd : c.data p with
    | none => simp [h0]
    | some e =>
      simp only [Option.isSome_some, Bool.not_true, Bool.and_false, Bool.false_eq_true, if_false, Option.any_some]
      have : (refs nv nq c p != 0) = true := by simpa using h0
      simp only [this, Bool.true_and, decide_eq_true_eq]

theorem refs_pos {nv nq : Nat} {c : Chain} {p : Nat} : refs nv nq c p ≠ 0 ↔
    (∃ x, x < nv ∧ c.links x = some p) ∨ ∃ q e, q < nq ∧ c.data q = some e ∧ e.parent = p := by
  unfold refs
  constructor
  · intro h
    by_cases h1 : Chain.linkCnt nv c p = 0
    · right
      obtain ⟨i, hi, hp⟩ := cnt_exists (show 0 < Chain.parCnt nq c p by omega)
      obtain ⟨e, he, hp⟩ := Chain.isPar_iff.1 hp
      exact ⟨i, e, hi, he, hp⟩
    · left
      obtain ⟨i, hi, hp⟩ := cnt_exists (show 0 < Chain.linkCnt nv c p by omega)
      exact ⟨i, hi, by simpa using hp⟩
  · rintro (⟨x, hx, h⟩ | ⟨q, e, hq, h, hp⟩)
    · have : 0 < Chain.linkCnt nv c p := cnt_pos hx (by simp [h])
      omega
    · have : 0 < Chain.parCnt nq c p := cnt_pos hq (Chain.isPar_iff.2 ⟨e, h, hp⟩)
      omega

theorem runDiagnostic_zero {nv nq : Nat} {adj : Nat → Nat → Prop} {c : Chain} (h : CInv nv nq adj zero c) :
    c.runDiagnostic nv nq = 0 := by
  rw [runDiagnostic_eq]
  have h1 : (List.range nq).any (fun p => refs nv nq c p != 0 && !c.has p) = false := by
    rw [List.any_eq_false]
    intro p _ hc
    simp only [Bool.and_eq_true, bne_iff_ne, Bool.not_eq_true'] at hc
    obtain ⟨a, b⟩ := h.missing hc.2
    exact hc.1 (by unfold refs; omega)
  have h2 : (List.range nq).any (fun p => refs nv nq c p != 0 && (c.data p).any fun e => decide ((refs nv nq c p : Int) ≠ e.refs)) = false := by
    rw [List.any_eq_false]
    intro p _ hc
    simp only [Bool.and_eq_true] at hc
    cases hd : c.data p with
    | none => rw [hd] at hc; simp at hc
    | some e =>
      rw [hd] at hc
      simp only [Option.any_some, decide_eq_true_eq] at hc
      refine hc.2 ?_
      rw [h.ref p e hd]
      unfold refs zero; push_cast; omega
  rw [h1, h2]; rfl

theorem runDiagnostic_pin {nv nq : Nat} {c : Chain} (h : c.runDiagnostic nv nq = 0) {p : Nat} (hp : p < nq)
    (hr : refs nv nq c p ≠ 0) : c.has p = true := by
  rw [runDiagnostic_eq] at h
  by_contra hc
  have : (List.range nq).any (fun p => refs nv nq c p != 0 && !c.has p) = true := by
    rw [List.any_eq_true]
    exact ⟨p, List.mem_range.2 hp, by simp at hc; simp [hr, hc]⟩
  rw [this] at h
  simp at h

/-! ### following the parents -/

theorem climb_ok {c : Chain} {nq : Nat} {rk : Nat → Nat} (hdom : ∀ q, c.has q = true → q < nq)
    (hpin : ∀ q e, c.data q = some e → c.has e.parent = true)
    (hrk : ∀ q e, c.data q = some e → e.parent ≠ q → rk e.parent < rk q) :
    ∀ n last z, c.has z = true → cnt (fun i => c.has i && decide (rk i < rk z)) nq ≤ n →
      climb c (n + 1) last z = .ok false := by
  intro n
  induction n with
  | zero =>
    intro last z hz hn
    unfold climb
    split_ifs with h
    · rfl
    · obtain ⟨e, he⟩ := Chain.has_iff.1 hz
      rw [he]
      simp only
      unfold climb
      by_cases hp : e.parent = z
      · simp [hp]
      · have h1 := hpin z e he
        have : 0 < cnt (fun i => c.has i && decide (rk i < rk z)) nq :=
          cnt_pos (hdom _ h1) (by simp [h1, hrk z e he hp])
        omega
  | succ n ih =>
    intro last z hz hn
    unfold climb
    split_ifs with h
    · rfl
    · obtain ⟨e, he⟩ := Chain.has_iff.1 hz
      rw [he]
      simp only
      by_cases hp : e.parent = z
      · rw [hp]; unfold climb; simp
      · have h1 := hpin z e he
        have h2 := hrk z e he hp
        refine ih z e.parent h1 ?_
        have h3 := cnt_change (p := fun i => c.has i && decide (rk i < rk z))
          (p' := fun i => (c.has i && decide (rk i < rk z)) && decide (i ≠ e.parent)) (k := e.parent) (hdom _ h1)
          (fun i hi => by simp [hi])
        have h4 : cnt (fun i => c.has i && decide (rk i < rk e.parent)) nq ≤
            cnt (fun i => (c.has i && decide (rk i < rk z)) && decide (i ≠ e.parent)) nq := by
          refine cnt_mono fun i _ hi => ?_
          simp only [Bool.and_eq_true, decide_eq_true_eq] at hi ⊢
          refine ⟨⟨hi.1, by omega⟩, ?_⟩
          rintro rfl; omega
        simp only [h1, h2, decide_true, Bool.and_true, ne_eq, not_true_eq_false, decide_false, Bool.and_false, ind] at h3
        simp only [if_true, Bool.false_eq_true, if_false] at h3
        simp only [ne_eq] at h4
        omega

/-! ### the breadth first search -/

open Relation

theorem spread_spec {P : Prob} {c : Chain} : ∀ (l comp : List Nat), (∀ p ∈ l, p < P.nq) →
    ∃ t, spread P c l comp = .ok (comp ++ t) ∧ (∀ p ∈ t, p ∈ l ∧ c.has p = true) ∧
      (comp.Nodup → (comp ++ t).Nodup) ∧ ∀ p ∈ l, c.has p = true → p ∈ comp ++ t := by
  intro l
  induction l with
  | nil =>
    intro comp _
    exact ⟨[], by simp [spread], by simp, by simp, by simp⟩
  | cons p l ih =>
    intro comp hl
    have hp := hl p (by simp)
    have hl' : ∀ p ∈ l, p < P.nq := fun x hx => hl x (by simp [hx])
    unfold spread
    rw [if_neg (by omega)]
    split_ifs with h
    · simp only [Bool.and_eq_true, Bool.not_eq_true', List.contains_eq_mem, decide_eq_false_iff_not] at h
      obtain ⟨t, h1, h2, h3, h4⟩ := ih (comp ++ [p]) hl'
      refine ⟨p :: t, by rw [h1]; simp, ?_, ?_, ?_⟩
      · intro x hx
        rcases List.mem_cons.1 hx with rfl | hx
        · exact ⟨by simp, h.2⟩
        · exact ⟨by simp [(h2 x hx).1], (h2 x hx).2⟩
      · intro hn
        have := h3 (by
          rw [List.nodup_append]
          refine ⟨hn, by simp, ?_⟩
          rintro a ha b hb rfl
          simp only [List.mem_singleton] at hb
          subst hb; exact h.1 ha)
        simpa using this
      · intro x hx hh
        rcases List.mem_cons.1 hx with rfl | hx
        · simp
        · have := h4 x hx hh
          simpa using this
    · obtain ⟨t, h1, h2, h3, h4⟩ := ih comp hl'
      refine ⟨t, h1, fun x hx => ⟨by simp [(h2 x hx).1], (h2 x hx).2⟩, h3, ?_⟩
      intro x hx hh
      rcases List.mem_cons.1 hx with rfl | hx
      · have : x ∈ comp := by
          by_contra hc
          exact h (by simp [hc, hh])
        simp [this]
      · exact h4 x hx hh

/-- One step of a path inside a chain. -/
def Step (P : Prob) (c : Chain) (a b : Nat) : Prop := b ∈ P.qn a ∧ c.has b = true

theorem nodup_length {n : Nat} {l : List Nat} (hn : l.Nodup) (hl : ∀ x ∈ l, x < n) : l.length ≤ n := by
  have h1 : l.Subperm (List.range n) := hn.subperm fun x hx => List.mem_range.2 (hl x hx)
  simpa using h1.length_le

theorem flood_spec {P : Prob} (hq : ∀ q p, q < P.Q → p ∈ P.qn q → p < P.nq) {c : Chain} {r : Nat} :
    ∀ n front comp, P.nq < front + n → front ≤ comp.length → comp.Nodup →
      (∀ q ∈ comp, q < P.nq ∧ c.has q = true ∧ ReflTransGen (Step P c) r q) →
      (∀ i q, i < front → comp[i]? = some q → ∀ p, Step P c q p → p ∈ comp) → r ∈ comp →
      ∃ out, flood P c n front comp = .ok out ∧ out.Nodup ∧
        (∀ q ∈ out, q < P.nq ∧ c.has q = true) ∧ ∀ q, q ∈ out ↔ ReflTransGen (Step P c) r q := by
  intro n
  induction n with
  | zero =>
    intro front comp h1 h2 h3 h4
    have := nodup_length h3 fun q hq => (h4 q hq).1
    omega
  | succ n ih =>
    intro front comp h1 h2 h3 h4 h5 h6
    unfold flood
    cases hf : comp[front]? with
    | none =>
      refine ⟨comp, rfl, h3, fun q hq => ⟨(h4 q hq).1, (h4 q hq).2.1⟩, fun q => ⟨fun h => (h4 q h).2.2, fun h => ?_⟩⟩
      have hlen : comp.length ≤ front := by simpa using hf
      induction h with
      | refl => exact h6
      | tail _ hs ih =>
        obtain ⟨i, hi⟩ := List.getElem?_of_mem ih
        exact h5 i _ (by have := (List.getElem?_eq_some_iff.1 hi).1; omega) hi _ hs
    | some q =>
      have hmem : q ∈ comp := List.mem_of_getElem? hf
      obtain ⟨q1, q2, q3⟩ := h4 q hmem
      have hQ : q < P.Q := by unfold Prob.Q; omega
      simp only
      rw [if_neg (by omega)]
      obtain ⟨t, t1, t2, t3, t4⟩ := spread_spec (P := P) (c := c) (P.qn q) comp (fun p hp => hq q p hQ hp)
      rw [t1]
      simp only [bind, Except.bind]
      have hlt : front < comp.length := (List.getElem?_eq_some_iff.1 hf).1
      refine ih (front + 1) (comp ++ t) (by omega) (by simp; omega) (t3 h3) ?_ ?_ (by simp [h6])
      · intro x hx
        rcases List.mem_append.1 hx with hx | hx
        · exact h4 x hx
        · exact ⟨hq q x hQ (t2 x hx).1, (t2 x hx).2, q3.tail (t2 x hx)⟩
      · intro i x hi hx p hp
        have hil : i < comp.length := by omega
        rw [List.getElem?_append_left hil] at hx
        by_cases hif : i = front
        · subst hif
          rw [hf] at hx; cases hx
          exact t4 p hp.1 hp.2
        · exact List.mem_append_left _ (h5 i x (by omega) hx p hp)

theorem keys_length {nq : Nat} {c : Chain} : (c.keys nq).length = c.size nq := by
  unfold Chain.keys Chain.size
  rw [← List.countP_eq_length_filter]
  generalize c.has = f
  induction nq with
  | zero => rfl
  | succ n ih =>
    rw [List.range_succ, List.countP_append, ih]
    simp [cnt, List.countP_cons]

/-- The check of a rooted chain reports exactly whether the chain is not connected. -/
theorem badRoot_iff {P : Prob} (wf : P.WF) {E : Emb} {v r : Nat} (hv : v < P.nv) (hr : (E.chains v).links v = some r)
    (hrq : r < P.nq) (hh : (E.chains v).has r = true) :
    badRoot P E v = .ok false ↔ ∀ q, q < P.Q → (E.chains v).has q = true → ReflTransGen (Step P (E.chains v)) r q := by
  unfold badRoot
  rw [hr]
  simp only
  rw [if_neg (by unfold Prob.fixed; simpa using hv), if_neg (by omega)]
  obtain ⟨out, h1, h2, h3, h4⟩ := flood_spec (P := P) wf.qn_lt (c := E.chains v) (r := r) (P.nq + 1) 0 [r] (by omega) (by simp) (by simp)
    (by intro q hq; simp only [List.mem_singleton] at hq; subst hq; exact ⟨hrq, hh, .refl⟩) (by intro i q hi; omega) (by simp)
  rw [h1]
  simp only [bind, Except.bind]
  unfold Emb.chainsize
  rw [← keys_length]
  have hsub : out.Subperm ((E.chains v).keys P.Q) := h2.subperm fun q hq => by
    have := h3 q hq
    exact mem_keys.2 ⟨by unfold Prob.Q; omega, this.2⟩
  constructor
  · intro h q hq hhas
    have hl : ((E.chains v).keys P.Q).length = out.length := by
      simpa using h
    have := hsub.perm_of_length_le (by omega)
    exact (h4 q).1 (this.mem_iff.2 (mem_keys.2 ⟨hq, hhas⟩))
  · intro h
    have hk : ((E.chains v).keys P.Q).Nodup := List.nodup_range.filter _
    have hsub' : ((E.chains v).keys P.Q).Subperm out := hk.subperm fun q hq => by
      obtain ⟨a, b⟩ := mem_keys.1 hq
      exact (h4 q).2 (h q a b)
    have := hsub.length_le
    have := hsub'.length_le
    have : ((E.chains v).keys P.Q).length = out.length := by omega
    simp [this]

/-! ### the whole check -/

theorem long_false {P : Prob} {init emb : Bool} {E : Emb} : longDiagnostic P init emb E = .ok false ↔
    (∀ v, v < P.N → badChain P E v = .ok false) ∧ (init = true → zeros P E ≤ 1) ∧
    (∀ v, v < P.N → badLinks P init E v = .ok false) ∧ ∀ q, q < P.nq → badFill P emb E q = false := by
  have e1 := anyErr_false (l := List.range P.N) (f := badChain P E)
  have e2 := anyErr_false (l := (List.range P.N).reverse) (f := badLinks P init E)
  simp only [List.mem_range, List.mem_reverse] at e1 e2
  rw [← e1, ← e2]
  unfold longDiagnostic
  have e3 : (List.range P.nq).reverse.any (badFill P emb E) = false ↔ ∀ q, q < P.nq → badFill P emb E q = false := by
    simp [List.any_eq_false]
  rw [← e3]
  have e4 : (decide (1 < zeros P E) && init) = false ↔ (init = true → zeros P E ≤ 1) := by
    cases init <;> simp
  rw [← e4]
  generalize (decide (1 < zeros P E) && init) = z
  generalize (List.range P.nq).reverse.any (badFill P emb E) = f
  cases anyErr (List.range P.N) (badChain P E) with
  | error e => simp [bind, Except.bind]
  | ok a =>
    cases anyErr (List.range P.N).reverse (badLinks P init E) with
    | error e => simp [bind, Except.bind]
    | ok b => cases a <;> cases z <;> cases b <;> cases f <;> simp [bind, Except.bind]

/-- What the caller of the search guarantees beside `Prob.WF`: fixed variables have no list of
neighbours, and free qubits are neighbours of each other. -/
structure Tidy (P : Prob) : Prop where
  vn_fixed : ∀ v, P.nv ≤ v → v < P.N → P.vn v = []
  qn_symm : ∀ a b, a < P.nq → b < P.nq → b ∈ P.qn a → a ∈ P.qn b

variable {P : Prob} {R : Nat → Nat → Prop} {E : Emb}

theorem step_of_adj (ht : Tidy P) {a b : Nat} (ha : a < P.nq) (hb : b < P.nq) (h : P.adj a b) : b ∈ P.qn a := by
  rcases h with ⟨_, h⟩ | ⟨_, h⟩
  · exact h
  · exact ht.qn_symm b a hb ha h

theorem fixed_self (wf : P.WF) (h : EInv P R E) {v : Nat} (hv : v < P.N) (hf : P.nv ≤ v) {q : Nat} {e : Entry}
    (he : (E.chains v).data q = some e) : e.parent = q := by
  have hq := (h.fixd v q hf hv).1 (Chain.has_iff.2 ⟨e, he⟩)
  have hp := (h.fixd v e.parent hf hv).1 ((h.cinv v hv).pin q e he)
  have q1 := wf.fixed_ge v q hf hv hq
  have p1 := wf.fixed_ge v _ hf hv hp
  rcases (h.cinv v hv).adj' q e he with h1 | ⟨a, b⟩ | ⟨a, b⟩
  · exact h1
  · have := wf.qn_lt _ _ a b; omega
  · have := wf.qn_lt _ _ a b; omega

theorem badChain_ok (wf : P.WF) (hR : Dom P R) (h : EInv P R E) {v : Nat} (hv : v < P.N) : badChain P E v = .ok false := by
  have hc := h.cinv v hv
  have hcyc : anyErr ((E.chains v).keys P.Q) (badCycle P (E.chains v)) = .ok false := by
    rw [anyErr_false]
    intro q hq
    obtain ⟨e, he⟩ := Chain.has_iff.1 (mem_keys.1 hq).2
    unfold badCycle
    rw [he]
    simp only
    by_cases hf : P.nv ≤ v
    · rw [fixed_self wf h hv hf he]; unfold climb; simp
    · obtain ⟨rk, hrk⟩ := hc.acyc
      refine climb_ok (nq := P.nq) (rk := rk) (fun q hq => hR.lt v q (by omega) (h.dom v q (by omega) hq)) hc.pin hrk
        P.nq q e.parent (hc.pin q e he) cnt_le
  have hpar : badParents P E v = .ok false := by
    unfold badParents
    split_ifs with hf
    · rfl
    · rw [anyErr_false]
      intro q hq
      obtain ⟨e, he⟩ := Chain.has_iff.1 (mem_keys.1 hq).2
      unfold badParent
      rw [he]
      simp only
      split_ifs with h1 h2
      · rfl
      · have a := (mem_keys.1 hq).1
        have b := hc.has_lt (hc.pin q e he)
        omega
      · rcases hc.adj' q e he with h3 | ⟨_, h3⟩ | ⟨_, h3⟩
        · exact absurd h3 h1
        · simp [h3]
        · simp [h3]
  unfold badChain
  rw [hpar]
  simp only [bind, Except.bind]
  rw [runDiagnostic_zero hc, hcyc]
  rfl

theorem badLink_ok (wf : P.WF) (h : EInv P R E) {init : Bool} {v u : Nat} (hv : v < P.nv) (hu : u ∈ P.vn v) (hne : E.NE v)
    (hl : init = true → E.NE u → E.L v u = true) : badLink P init E v u = .ok false := by
  have huN := wf.vn_lt v u hv hu
  have hvN : v < P.N := by unfold Prob.N; omega
  have huv : u ≠ v := by rintro rfl; exact wf.vn_irr u hv hu
  have hs := h.L_symm huN hvN
  unfold badLink
  rw [if_neg (by omega)]
  simp only
  by_cases h0 : E.chainsize P u = 0
  · rw [if_pos h0]
    have hno : ¬ E.NE u := fun hc => (h.size_iff huN).2 hc h0
    have : E.L u v = false := by
      by_contra hc
      exact hno (h.L_ne huN (by simpa using hc))
    rw [Emb.L_false.1 this, Emb.L_false.1 (hs ▸ this)]
    rfl
  · rw [if_neg h0]
    have hneu := (h.size_iff huN).1 h0
    cases hlv : (E.chains v).links u with
    | none =>
      have h1 : E.L v u = false := Emb.L_false.2 hlv
      have h2 := Emb.L_false.1 (hs.trans h1)
      rw [h2]
      simp only
      cases init with
      | false => rfl
      | true => rw [hl rfl hneu] at h1; cases h1
    | some a =>
      obtain ⟨b, hb, hnear⟩ := h.sym v u a hvN huN (Ne.symm huv) hlv
      rw [hb]
      simp only
      have ha := (h.cinv v hvN).lin u a hlv
      have hb' := (h.cinv u huN).lin v b hb
      rw [ha, hb']
      rw [if_pos (by rfl), if_neg (by have := (h.cinv v hvN).has_lt ha; have := (h.cinv u huN).has_lt hb'; omega)]
      rcases hnear with rfl | ⟨_, h3⟩ | ⟨_, h3⟩
      · simp
      · simp [h3]
      · simp [h3]

theorem rooted_conn (ht : Tidy P) (hR : Dom P R) (h : EInv P R E) {v r : Nat} (hv : v < P.nv)
    (hr : (E.chains v).links v = some r) : ∀ q, (E.chains v).has q = true → ReflTransGen (Step P (E.chains v)) r q := by
  have hvN : v < P.N := by unfold Prob.N; omega
  have hc := h.cinv v hvN
  obtain ⟨rk, hrk⟩ := hc.acyc
  have key : ∀ n q, rk q ≤ n → (E.chains v).has q = true → ReflTransGen (Step P (E.chains v)) r q := by
    intro n
    induction n with
    | zero =>
      intro q hn hq
      obtain ⟨e, he⟩ := Chain.has_iff.1 hq
      by_cases hp : e.parent = q
      · have := h.root v r hvN hr q (by unfold Chain.parents; rw [he]; simp [hp])
        rw [this]
      · have := hrk q e he hp; omega
    | succ n ih =>
      intro q hn hq
      obtain ⟨e, he⟩ := Chain.has_iff.1 hq
      by_cases hp : e.parent = q
      · have := h.root v r hvN hr q (by unfold Chain.parents; rw [he]; simp [hp])
        rw [this]
      · have h1 := hrk q e he hp
        have h2 := hc.pin q e he
        refine (ih e.parent (by omega) h2).tail ⟨?_, hq⟩
        have hadj : P.adj q e.parent := (hc.adj' q e he).resolve_left hp
        exact step_of_adj ht (hR.lt v _ hv (h.dom v _ hv h2)) (hR.lt v _ hv (h.dom v _ hv hq)) (P.adj_symm _ _ hadj)
  exact fun q hq => key (rk q) q le_rfl hq

theorem badLinks_ok (wf : P.WF) (ht : Tidy P) (hR : Dom P R) (h : EInv P R E) {init : Bool} {v : Nat} (hv : v < P.N)
    (hl : init = true → ∀ v u, v < P.nv → u ∈ P.vn v → E.NE v → E.NE u → E.L v u = true) :
    badLinks P init E v = .ok false := by
  unfold badLinks
  split_ifs with h0
  · rfl
  · have hne := (h.size_iff hv).1 h0
    have h1 : anyErr (P.vn v) (badLink P init E v) = .ok false := by
      rw [anyErr_false]
      intro u hu
      by_cases hf : P.nv ≤ v
      · rw [ht.vn_fixed v hf hv] at hu; simp at hu
      · exact badLink_ok wf h (by omega) hu hne fun hi hnu => hl hi v u (by omega) hu hne hnu
    have h2 : badRoot P E v = .ok false := by
      cases hr : (E.chains v).links v with
      | none => unfold badRoot; rw [hr]
      | some r =>
        by_cases hf : P.nv ≤ v
        · unfold badRoot
          rw [hr]
          simp only
          rw [if_pos (by unfold Prob.fixed; simpa using hf)]
        · have hh := (h.cinv v hv).lin v r hr
          refine (badRoot_iff wf (by omega) hr (hR.lt v r (by omega) (h.dom v r (by omega) hh)) hh).2 fun q _ hq => ?_
          exact rooted_conn ht hR h (by omega) hr q hq
    rw [h1, h2]; rfl

/-- On a free qubit only free chains count. -/
theorem cnt_free (wf : P.WF) (hE : EInv P R E) {q : Nat} (hq : q < P.nq) :
    cnt (fun v => (E.chains v).has q) P.N = cnt (fun v => (E.chains v).has q) P.nv := by
  have h1 : ∀ n, n ≤ P.nf → cnt (fun v => (E.chains v).has q) (P.nv + n) = cnt (fun v => (E.chains v).has q) P.nv := by
    intro n
    induction n with
    | zero => intro _; rfl
    | succ n ih =>
      intro hn
      have : (E.chains (P.nv + n)).has q = false := by
        by_contra hc
        have hlt : P.nv + n < P.N := by unfold Prob.N; omega
        have := (hE.fixd (P.nv + n) q (by omega) hlt).1 (by simpa using hc)
        have := wf.fixed_ge (P.nv + n) q (by omega) hlt this
        omega
      rw [show P.nv + (n + 1) = (P.nv + n) + 1 by omega]
      simp only [cnt, this]
      simpa using ih (by omega)
  exact h1 P.nf le_rfl

theorem long_ok (wf : P.WF) (ht : Tidy P) (hR : Dom P R) (h : EInv P R E) {init emb : Bool}
    (hz : init = true → zeros P E ≤ 1)
    (hl : init = true → ∀ v u, v < P.nv → u ∈ P.vn v → E.NE v → E.NE u → E.L v u = true)
    (ho : emb = true → ∀ q, q < P.nq → cnt (fun v => (E.chains v).has q) P.nv ≤ 1) :
    longDiagnostic P init emb E = .ok false := by
  rw [long_false]
  refine ⟨fun v hv => badChain_ok wf hR h hv, hz, fun v hv => badLinks_ok wf ht hR h hv hl, fun q hq => ?_⟩
  unfold badFill
  simp only
  rw [h.exact q, cnt_free wf h hq]
  cases emb with
  | false => simp
  | true => have := ho rfl q hq; simp; exact this

end Diag
end MM
