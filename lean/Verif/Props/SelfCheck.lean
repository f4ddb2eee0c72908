import Verif.Core.DiagnoseInv
import Verif.Graph.ProcInv
import Verif.Props.State

/-! C124, C125: the self-check of debugging builds. -/

namespace MM

open Relation
open Scratch (Cfg)

/-! ### C124 -/

/-- Number of stored references to qubit `p` in a chain: links to `p`, and qubits with parent `p`. -/
def Spec.references (nv nq : Nat) (c : Chain) (p : Nat) : Nat :=
  ((List.range nv).filter fun x => decide (c.links x = some p)).length +
  ((List.range nq).filter fun q => decide ((c.data q).map Entry.parent = some p)).length

theorem length_filter_range (f : Nat → Bool) (n : Nat) : ((List.range n).filter f).length = cnt f n := by
  rw [← List.countP_eq_length_filter]
  induction n with
  | zero => rfl
  | succ n ih =>
    rw [List.range_succ, List.countP_append, ih]
    simp [cnt, List.countP_cons]

theorem Spec.references_eq (nv nq : Nat) (c : Chain) (p : Nat) : Spec.references nv nq c p = Diag.refs nv nq c p := by
  unfold Spec.references Diag.refs
  rw [length_filter_range, length_filter_range]
  congr 1
  · refine cnt_congr fun x _ => ?_
    rw [Bool.eq_iff_iff]; simp
  · refine cnt_congr fun x _ => ?_
    rw [Bool.eq_iff_iff, Chain.isPar_iff]
    cases c.data x <;> simp

/-- **C124.** The check of one chain: bit 0 of the report is set exactly when a link or a parent is a
qubit outside the chain; bit 1 exactly when the count stored with a referenced qubit differs from the
number of references; there are no other bits. -/
theorem C124_report {nv nq : Nat} {c : Chain} (hl : ∀ x q, c.links x = some q → x < nv ∧ q < nq)
    (hd : ∀ q e, c.data q = some e → q < nq ∧ e.parent < nq) :
    (c.runDiagnostic nv nq &&& 1 ≠ 0 ↔ ∃ p, c.data p = none ∧ ((∃ x, c.links x = some p) ∨ ∃ q e, c.data q = some e ∧ e.parent = p)) ∧
    (c.runDiagnostic nv nq &&& 2 ≠ 0 ↔ ∃ p e, c.data p = some e ∧ Spec.references nv nq c p ≠ 0 ∧
      e.refs ≠ Spec.references nv nq c p) ∧
    c.runDiagnostic nv nq < 4 := by
  rw [Diag.runDiagnostic_eq]
  have h1 : (List.range nq).any (fun p => Diag.refs nv nq c p != 0 && !c.has p) = true ↔
      ∃ p, c.data p = none ∧ ((∃ x, c.links x = some p) ∨ ∃ q e, c.data q = some e ∧ e.parent = p) := by
    rw [List.any_eq_true]
    constructor
    · rintro ⟨p, _, hp⟩
      simp only [Bool.and_eq_true, bne_iff_ne, Bool.not_eq_true'] at hp
      refine ⟨p, by simpa [Chain.has] using hp.2, ?_⟩
      rcases Diag.refs_pos.1 hp.1 with ⟨x, _, h⟩ | ⟨q, e, _, h, h'⟩
      · exact Or.inl ⟨x, h⟩
      · exact Or.inr ⟨q, e, h, h'⟩
    · rintro ⟨p, hn, h⟩
      have : p < nq ∧ Diag.refs nv nq c p ≠ 0 := by
        rcases h with ⟨x, h⟩ | ⟨q, e, h, h'⟩
        · exact ⟨(hl x p h).2, Diag.refs_pos.2 (Or.inl ⟨x, (hl x p h).1, h⟩)⟩
        · exact ⟨h' ▸ (hd q e h).2, Diag.refs_pos.2 (Or.inr ⟨q, e, (hd q e h).1, h, h'⟩)⟩
      exact ⟨p, List.mem_range.2 this.1, by simp [this.2, Chain.has, hn]⟩
  have h2 : (List.range nq).any (fun p => Diag.refs nv nq c p != 0 && (c.data p).any fun e => decide ((Diag.refs nv nq c p : Int) ≠ e.refs)) = true ↔
      ∃ p e, c.data p = some e ∧ Spec.references nv nq c p ≠ 0 ∧ e.refs ≠ Spec.references nv nq c p := by
    simp only [Spec.references_eq]
    rw [List.any_eq_true]
    constructor
    · rintro ⟨p, _, hp⟩
      simp only [Bool.and_eq_true, bne_iff_ne] at hp
      obtain ⟨hp1, hp2⟩ := hp
      cases he : c.data p with
      | none => rw [he] at hp2; simp at hp2
      | some e =>
        rw [he] at hp2
        simp only [Option.any_some, decide_eq_true_eq] at hp2
        exact ⟨p, e, he, hp1, Ne.symm hp2⟩
    · rintro ⟨p, e, he, hp1, hp2⟩
      refine ⟨p, List.mem_range.2 (hd p e he).1, ?_⟩
      simp only [Bool.and_eq_true, bne_iff_ne]
      refine ⟨hp1, ?_⟩
      rw [he]
      simp only [Option.any_some, decide_eq_true_eq]
      exact Ne.symm hp2
  rw [← h1, ← h2]
  generalize (List.range nq).any (fun p => Diag.refs nv nq c p != 0 && !c.has p) = a
  generalize (List.range nq).any (fun p => Diag.refs nv nq c p != 0 && (c.data p).any fun e => decide ((Diag.refs nv nq c p : Int) ≠ e.refs)) = b
  cases a <;> cases b <;> decide

theorem cnt_le_one_of {p : Nat → Bool} {n : Nat} (h : ∀ i j, i < n → j < n → p i = true → p j = true → i = j) : cnt p n ≤ 1 := by
  induction n with
  | zero => simp [cnt]
  | succ n ih =>
    unfold cnt
    split_ifs with hn
    · have : cnt p n = 0 := cnt_eq_zero.2 fun i hi => by
        by_contra hc
        have := h i n (by omega) (by omega) (by simpa using hc) hn
        omega
      omega
    · have := ih fun i j hi hj => h i j (by omega) (by omega)
      omega

variable {P : Prob} {R : Nat → Nat → Prop} {C : Cfg} {E : Emb}

/-- **C124.** The self-check of debugging builds reports no error in any state of a search, if its two
flags tell the truth: if the search is said to be initialized, at most one chain is empty and the
chains of neighbours are linked; if an embedding is said to have been found, no free qubit is in the
chains of two free variables. -/
theorem C124_no_false_alarm (wf : P.WF) (ht : Diag.Tidy P) (hR : Dom P R) (he : P.Even) (h : Arises P R C E)
    {init emb : Bool}
    (hz : init = true → ∀ u v, u < P.N → v < P.N → (∀ q, (E.chains u).data q = none) → (∀ q, (E.chains v).data q = none) → u = v)
    (hl : init = true → ∀ v u, v < P.nv → u ∈ P.vn v → (∃ q e, (E.chains v).data q = some e) → (∃ q e, (E.chains u).data q = some e) →
      ∃ q, (E.chains v).links u = some q)
    (ho : emb = true → ∀ q u v, q < P.nq → u < P.nv → v < P.nv → (∃ e, (E.chains u).data q = some e) →
      (∃ e, (E.chains v).data q = some e) → u = v) :
    Diag.longDiagnostic P init emb E = .ok false := by
  have hE := h.inv wf hR he
  refine Diag.long_ok wf ht hR hE ?_ ?_ ?_
  · intro hi
    refine cnt_le_one_of fun u v hu hv a b => hz hi u v hu hv ?_ ?_
    · have : ¬ E.NE u := fun hc => (hE.size_iff hu).2 hc (by simpa using a)
      intro q
      cases hq : (E.chains u).data q with
      | none => rfl
      | some e => exact absurd ⟨q, Chain.has_iff.2 ⟨e, hq⟩⟩ this
    · have : ¬ E.NE v := fun hc => (hE.size_iff hv).2 hc (by simpa using b)
      intro q
      cases hq : (E.chains v).data q with
      | none => rfl
      | some e => exact absurd ⟨q, Chain.has_iff.2 ⟨e, hq⟩⟩ this
  · rintro hi v u hv hu ⟨q, hq⟩ ⟨p, hp⟩
    exact Emb.L_iff.2 (hl hi v u hv hu ⟨q, Chain.has_iff.1 hq⟩ ⟨p, Chain.has_iff.1 hp⟩)
  · intro hm q hq
    exact cnt_le_one_of fun u v hu hv a b => ho hm q u v hq hu hv (Chain.has_iff.1 a) (Chain.has_iff.1 b)

/-- **C124.** Every problem handed to the search is as `C124_no_false_alarm` needs it: fixed variables
have no list of neighbours, and free qubits are neighbours of each other. -/
theorem C124_tidy {sort : List (List Nat) → List (List Nat)} (hs : SortOK sort) {I : Input} (hI : I.OK) {p : Proc}
    (hp : I.process sort = .ok p) :
    (∀ v, p.P.nv ≤ v → v < p.P.N → p.P.vn v = []) ∧
    (∀ a b, a < p.P.nq → b < p.P.nq → b ∈ p.P.qn a → a ∈ p.P.qn b) := by
  obtain ⟨l0, h⟩ : ∃ l0, p.Rep I l0 := by
    rcases process_full hs hI with h | ⟨h, _⟩ | h
    · exact h.of_eq hp
    · rw [h] at hp; cases hp
    · rw [h] at hp; cases hp
  refine ⟨h.vnf, fun a b ha hb hm => ?_⟩
  have hQ := h.hQ
  have hle : p.P.nq ≤ p.P.Q := by unfold Prob.Q; omega
  obtain ⟨x, hx⟩ : ∃ x, l0[a]? = some x := ⟨_, List.getElem?_eq_getElem (by omega)⟩
  obtain ⟨y, hy⟩ : ∃ y, l0[b]? = some y := ⟨_, List.getElem?_eq_getElem (by omega)⟩
  obtain ⟨h1, h2, _⟩ := (h.qn a b x y hx hy).1 hm
  exact (h.qn b a y x hy hx).2 ⟨Ne.symm h1, h2.symm, fun hc => by have := (h.resv a x hx).2 hc; omega⟩

/-! ### C125 -/

/-- **C125 (partial).** A state the self-check accepts while its flags say "initialized" and "embedded" is a minor
embedding: the chains of free variables are connected and disjoint, and the chain of a free variable
is joined by a coupler to that of each of its neighbours.

Assumed: no chain is empty, chains of free variables use free qubits and those of fixed ones reserved
qubits, and every chain of a free variable has a root; without a root its connection is not
looked at (`C125_unrooted`). -/
theorem C125_accepted_partial (wf : P.WF) (h : Diag.longDiagnostic P true true E = .ok false)
    (hne : ∀ v, v < P.N → ∃ q e, (E.chains v).data q = some e)
    (hfree : ∀ v q e, v < P.nv → (E.chains v).data q = some e → q < P.nq)
    (hfix : ∀ v q e, P.nv ≤ v → v < P.N → (E.chains v).data q = some e → P.nq ≤ q ∧ q < P.Q)
    (hroot : ∀ v, v < P.nv → ∃ r, (E.chains v).links v = some r) :
    (∀ v, v < P.nv → ∃ r, ∀ q e, (E.chains v).data q = some e →
      ReflTransGen (fun a b => b ∈ P.qn a ∧ ∃ e, (E.chains v).data b = some e) r q) ∧
    (∀ u v q, u < P.nv → v < P.nv → (∃ e, (E.chains u).data q = some e) → (∃ e, (E.chains v).data q = some e) → u = v) ∧
    (∀ v u, v < P.nv → u ∈ P.vn v → ∃ a b, (∃ e, (E.chains v).data a = some e) ∧ (∃ e, (E.chains u).data b = some e) ∧
      (b ∈ P.qn a ∨ a ∈ P.qn b)) ∧
    (∀ q, q < P.nq → E.w q = ((List.range P.nv).filter fun v => ((E.chains v).data q).isSome).length) := by
  obtain ⟨h1, _, h3, h4⟩ := Diag.long_false.1 h
  have hNv : ∀ v, v < P.nv → v < P.N := fun v hv => by unfold Prob.N; omega
  have hlt : ∀ v q, v < P.N → (E.chains v).has q = true → q < P.Q := by
    intro v q hv hq
    obtain ⟨e, he⟩ := Chain.has_iff.1 hq
    by_cases hf : P.nv ≤ v
    · exact (hfix v q e hf hv he).2
    · have := hfree v q e (by omega) he
      unfold Prob.Q; omega
  have hsz : ∀ v, v < P.N → E.chainsize P v ≠ 0 := by
    intro v hv
    obtain ⟨q, e, he⟩ := hne v hv
    have hq := Chain.has_iff.2 ⟨e, he⟩
    have := cnt_pos (hlt v q hv hq) hq
    unfold Emb.chainsize Chain.size; omega
  have hfill : ∀ q, q < P.nq → E.w q = cnt (fun v => (E.chains v).has q) P.nv ∧ cnt (fun v => (E.chains v).has q) P.nv ≤ 1 := by
    intro q hq
    have := h4 q hq
    unfold Diag.badFill at this
    simp only [Bool.or_eq_false_iff, Bool.true_and, decide_eq_false_iff_not] at this
    omega
  have hdisj : ∀ u v q, u < P.nv → v < P.nv → (E.chains u).has q = true → (E.chains v).has q = true → u = v := by
    intro u v q hu hv a b
    by_contra hc
    obtain ⟨e, he⟩ := Chain.has_iff.1 a
    have := cnt_two (p := fun v => (E.chains v).has q) hu hv hc a b
    have := hfill q (hfree u q e hu he)
    omega
  have hlinks : ∀ v, v < P.nv → (∀ u ∈ P.vn v, Diag.badLink P true E v u = .ok false) ∧ Diag.badRoot P E v = .ok false := by
    intro v hv
    have := h3 v (hNv v hv)
    unfold Diag.badLinks at this
    rw [if_neg (hsz v (hNv v hv))] at this
    cases ha : Diag.anyErr (P.vn v) (Diag.badLink P true E v) with
    | error e => rw [ha] at this; simp [bind, Except.bind] at this
    | ok a =>
      rw [ha] at this
      simp only [bind, Except.bind] at this
      cases hb : Diag.badRoot P E v with
      | error e => rw [hb] at this; simp at this
      | ok b =>
        rw [hb] at this
        simp only [Except.ok.injEq, Bool.or_eq_false_iff] at this
        obtain ⟨rfl, rfl⟩ := this
        exact ⟨Diag.anyErr_false.1 ha, rfl⟩
  refine ⟨?_, ?_, ?_, ?_⟩
  · intro v hv
    obtain ⟨r, hr⟩ := hroot v hv
    have hb := (hlinks v hv).2
    have hrq : r < P.nq := by
      by_contra hc
      unfold Diag.badRoot at hb
      rw [hr] at hb
      simp only at hb
      rw [if_neg (by unfold Prob.fixed; simpa using hv), if_pos (by omega)] at hb
      cases hb
    have hdiag : (E.chains v).runDiagnostic P.N P.Q = 0 := by
      by_contra hc
      have := h1 v (hNv v hv)
      unfold Diag.badChain at this
      cases ha : Diag.badParents P E v with
      | error e => rw [ha] at this; simp [bind, Except.bind] at this
      | ok a =>
        rw [ha] at this
        simp only [bind, Except.bind] at this
        rw [if_neg hc] at this
        cases this
    have hh : (E.chains v).has r = true :=
      Diag.runDiagnostic_pin hdiag (by unfold Prob.Q; omega) (Diag.refs_pos.2 (Or.inl ⟨v, hNv v hv, hr⟩))
    refine ⟨r, fun q e he => ?_⟩
    have hq := Chain.has_iff.2 ⟨e, he⟩
    have key := (Diag.badRoot_iff wf hv hr hrq hh).1 hb q (hlt v q (hNv v hv) hq) hq
    clear he hq
    induction key with
    | refl => exact .refl
    | tail _ hs ih => exact ih.tail ⟨hs.1, Chain.has_iff.1 hs.2⟩
  · intro u v q hu hv a b
    exact hdisj u v q hu hv (Chain.has_iff.2 a) (Chain.has_iff.2 b)
  · intro v u hv hu
    have huN := wf.vn_lt v u hv hu
    have hb := (hlinks v hv).1 u hu
    unfold Diag.badLink at hb
    rw [if_neg (by omega)] at hb
    simp only at hb
    rw [if_neg (hsz u huN)] at hb
    cases hlv : (E.chains v).links u with
    | none =>
      rw [hlv] at hb
      cases hlu : (E.chains u).links v with
      | none => rw [hlu] at hb; simp at hb
      | some b => rw [hlu] at hb; simp at hb
    | some a =>
      rw [hlv] at hb
      cases hlu : (E.chains u).links v with
      | none => rw [hlu] at hb; simp at hb
      | some b =>
        rw [hlu] at hb
        simp only at hb
        split_ifs at hb with c1 c2
        · simp only [Bool.and_eq_true] at c1
          simp only [Except.ok.injEq] at hb
          have hab : a ≠ b := by
            rintro rfl
            by_cases hf : P.nv ≤ u
            · obtain ⟨e, he⟩ := Chain.has_iff.1 c1.1
              obtain ⟨e', he'⟩ := Chain.has_iff.1 c1.2
              have := hfree v a e hv he
              have := hfix u a e' hf huN he'
              omega
            · have := hdisj v u a hv (by omega) c1.1 c1.2
              subst this
              exact wf.vn_irr v hv hu
          refine ⟨a, b, Chain.has_iff.1 c1.1, Chain.has_iff.1 c1.2, ?_⟩
          by_contra hc
          push Not at hc
          simp [hc.1, hc.2, hab] at hb
        · cases hb
  · intro q hq
    rw [(hfill q hq).1]
    have : ((List.range P.nv).filter fun v => ((E.chains v).data q).isSome).length = cnt (fun v => (E.chains v).has q) P.nv :=
      length_filter_range (fun v => (E.chains v).has q) P.nv
    rw [this]

namespace Demo

/-- A chain of the qubits 0 and 1, rooted at 0, that uses qubit 1 for its neighbour. -/
def sound0 : Chain where
  label := 0
  data := fun q => if q = 0 then some ⟨0, 3⟩ else if q = 1 then some ⟨0, 1⟩ else none
  links := fun x => if x = 0 then some 0 else if x = 1 then some 1 else none

/-- A chain of qubit 2 alone. -/
def sound1 : Chain where
  label := 1
  data := fun q => if q = 2 then some ⟨2, 3⟩ else none
  links := fun x => if x = 0 then some 2 else if x = 1 then some 2 else none

/-- An embedding of two joined variables on a path. -/
def sound : Emb where
  chains := fun v => if v = 0 then sound0 else if v = 1 then sound1 else Chain.empty v
  w := fun q => if q < 3 then 1 else 0
  fr := ⟨fun _ => none, fun _ => none, fun _ => none⟩

theorem sound_accepted : Diag.longDiagnostic P0 true true sound = .ok false := by decide +kernel

/-- A chain of the qubits 0 and 3 without a root. -/
def split0 : Chain where
  label := 0
  data := fun q => if q = 0 then some ⟨0, 2⟩ else if q = 3 then some ⟨3, 1⟩ else none
  links := fun x => if x = 1 then some 0 else none

/-- A chain of qubit 1 alone. -/
def split1 : Chain where
  label := 1
  data := fun q => if q = 1 then some ⟨1, 3⟩ else none
  links := fun x => if x = 0 then some 1 else if x = 1 then some 1 else none

def split : Emb where
  chains := fun v => if v = 0 then split0 else if v = 1 then split1 else Chain.empty v
  w := fun q => if q = 2 then 0 else if q < 4 then 1 else 0
  fr := ⟨fun _ => none, fun _ => none, fun _ => none⟩

/-- The count stored with qubit 1, to which nothing refers, is wrong. -/
def miscounted : Chain where
  label := 0
  data := fun q => if q = 0 then some ⟨0, 3⟩ else if q = 1 then some ⟨0, 7⟩ else none
  links := fun x => if x = 0 then some 0 else none

end Demo

/-- A wrong count goes unnoticed if nothing refers to the qubit. -/
theorem C124_missed : ∃ (c : Chain) (e : Entry), c.data 1 = some e ∧ e.refs ≠ Spec.references 2 4 c 1 ∧
    c.runDiagnostic 2 4 = 0 :=
  ⟨Demo.miscounted, ⟨0, 7⟩, rfl, by decide, by decide⟩

/-- Without a root, a chain in two pieces is accepted. -/
theorem C125_unrooted : ∃ E : Emb, Diag.longDiagnostic Demo.P0 true true E = .ok false ∧
    (∀ v, v < Demo.P0.N → ∃ q e, (E.chains v).data q = some e) ∧
    ¬ ∃ r, ∀ q e, (E.chains 0).data q = some e →
      ReflTransGen (fun a b => b ∈ Demo.P0.qn a ∧ ∃ e, (E.chains 0).data b = some e) r q := by
  refine ⟨Demo.split, by decide +kernel, ?_, ?_⟩
  · intro v hv
    have : v = 0 ∨ v = 1 := by have : v < 2 := hv; omega
    rcases this with rfl | rfl
    · exact ⟨0, _, rfl⟩
    · exact ⟨1, _, rfl⟩
  · rintro ⟨r, h⟩
    have key : ∀ a b, ReflTransGen (fun a b => b ∈ Demo.P0.qn a ∧ ∃ e, (Demo.split.chains 0).data b = some e) a b →
        a = b ∨ (∃ c, b ∈ Demo.P0.qn c ∧ (c = a ∨ ∃ e, (Demo.split.chains 0).data c = some e) ∧ ∃ e, (Demo.split.chains 0).data b = some e) := by
      intro a b hab
      induction hab with
      | refl => exact Or.inl rfl
      | tail _ hs ih =>
        refine Or.inr ⟨_, hs.1, ?_, hs.2⟩
        rcases ih with rfl | ⟨_, _, _, h⟩
        · exact Or.inl rfl
        · exact Or.inr h
    have hd : ∀ q e, (Demo.split.chains 0).data q = some e → q = 0 ∨ q = 3 := by
      intro q e he
      by_cases h0 : q = 0
      · exact Or.inl h0
      · by_cases h3 : q = 3
        · exact Or.inr h3
        · exfalso
          have : (Demo.split.chains 0).data q = none := by
            show (if q = 0 then some (⟨0, 2⟩ : Entry) else if q = 3 then some ⟨3, 1⟩ else none) = none
            rw [if_neg h0, if_neg h3]
          rw [this] at he; cases he
    have hn0 : ∀ c, 0 ∈ Demo.P0.qn c → c = 1 := by
      intro c hc
      change 0 ∈ (if c = 0 then [1] else if c = 1 then [0, 2] else if c = 2 then [1, 3] else [2]) at hc
      split_ifs at hc <;> simp_all
    have hn3 : ∀ c, 3 ∈ Demo.P0.qn c → c = 2 := by
      intro c hc
      change 3 ∈ (if c = 0 then [1] else if c = 1 then [0, 2] else if c = 2 then [1, 3] else [2]) at hc
      split_ifs at hc <;> simp_all
    have h0 : r = 0 ∨ r = 1 := by
      rcases key r 0 (h 0 _ rfl) with h | ⟨c, hc, h, _⟩
      · exact Or.inl h
      · have := hn0 c hc
        subst this
        rcases h with h | ⟨e, he⟩
        · exact Or.inr h.symm
        · have := hd 1 e he; omega
    have h3 : r = 3 ∨ r = 2 := by
      rcases key r 3 (h 3 _ rfl) with h | ⟨c, hc, h, _⟩
      · exact Or.inl h
      · have := hn3 c hc
        subst this
        rcases h with h | ⟨e, he⟩
        · exact Or.inr h.symm
        · have := hd 2 e he; omega
    omega

/-- The hypotheses of `C124_report` are met. -/
example : Demo.sound0.runDiagnostic 2 4 &&& 1 = 0 := by
  have := (C124_report (nv := 2) (nq := 4) (c := Demo.sound0) ?_ ?_).1
  · rw [show Demo.sound0.runDiagnostic 2 4 = 0 by decide]; rfl
  · intro x q h
    change (if x = 0 then some 0 else if x = 1 then some 1 else none) = some q at h
    split_ifs at h <;> simp_all <;> omega
  · intro q e h
    change (if q = 0 then some (⟨0, 3⟩ : Entry) else if q = 1 then some ⟨0, 1⟩ else none) = some e at h
    split_ifs at h <;> simp_all <;> subst h <;> simp

/-- What is reported for a sound chain and for changed ones. -/
example : (Demo.sound0.runDiagnostic 2 4 = 0) ∧
    ({ Demo.sound0 with links := fun x => if x = 0 then some 0 else none } : Chain).runDiagnostic 2 4 = 0 ∧
    ({ Demo.sound0 with links := fun x => if x = 1 then some 1 else none } : Chain).runDiagnostic 2 4 = 2 ∧
    ({ Demo.sound0 with links := fun x => if x = 0 then some 0 else if x = 1 then some 3 else none } : Chain).runDiagnostic 2 4 = 1 := by
  decide

theorem Demo.P0_tidy : Diag.Tidy Demo.P0 := by
  refine ⟨fun v h1 h2 => ?_, fun a b ha hb => ?_⟩
  · have : v < 2 := h2
    have : 2 ≤ v := h1
    omega
  · have h4 : ∀ q, q < Demo.P0.nq → q = 0 ∨ q = 1 ∨ q = 2 ∨ q = 3 := fun q (hu : q < 4) => by omega
    rcases h4 a ha with rfl | rfl | rfl | rfl <;> rcases h4 b hb with rfl | rfl | rfl | rfl <;> simp [Demo.P0]

/-- A loaded pair of overlapping chains, before the search is initialized. -/
example : ∃ E, Arises Demo.P0 Demo.R0 Demo.cfg E ∧ Diag.longDiagnostic Demo.P0 false false E = .ok false :=
  let ⟨E0, _, _, h⟩ := Demo.arises0
  ⟨Emb.copy Demo.P0 Emb.empty E0, h, C124_no_false_alarm Demo.P0_wf Demo.P0_tidy Demo.P0_dom Demo.P0_even h
    (fun h => by cases h) (fun h => by cases h) (fun h => by cases h)⟩

/-- An accepted embedding meets the hypotheses of `C125_accepted_partial`. -/
example : ∃ r, ∀ q e, (Demo.sound.chains 0).data q = some e →
    ReflTransGen (fun a b => b ∈ Demo.P0.qn a ∧ ∃ e, (Demo.sound.chains 0).data b = some e) r q := by
  have h2 : ∀ v, v < 2 → v = 0 ∨ v = 1 := fun v hv => by omega
  refine (C125_accepted_partial Demo.P0_wf Demo.sound_accepted ?_ ?_ ?_ ?_).1 0 (by decide)
  · intro v hv
    rcases h2 v hv with rfl | rfl
    · exact ⟨0, _, rfl⟩
    · exact ⟨2, _, rfl⟩
  · intro v q e hv he
    show q < 4
    by_contra hc
    rcases h2 v hv with rfl | rfl
    · change (if q = 0 then some (⟨0, 3⟩ : Entry) else if q = 1 then some ⟨0, 1⟩ else none) = some e at he
      rw [if_neg (by omega), if_neg (by omega)] at he; cases he
    · change (if q = 2 then some (⟨2, 3⟩ : Entry) else none) = some e at he
      rw [if_neg (by omega)] at he; cases he
  · intro v q e h1 h3
    have : v < 2 := h3
    have : 2 ≤ v := h1
    omega
  · intro v hv
    rcases h2 v hv with rfl | rfl
    · exact ⟨0, rfl⟩
    · exact ⟨2, rfl⟩

end MM
