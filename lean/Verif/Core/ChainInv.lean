import Verif.Core.Chain

/-! Structural invariant of a chain and its preservation by the basic operations. -/

namespace MM
namespace Chain

/-- Does entry `i` name `q` as its parent? -/
def isPar (c : Chain) (q i : Nat) : Bool :=
  match c.data i with
  | some e => e.parent == q
  | none => false

/-- Number of links stored for qubit `q`. -/
def linkCnt (nv : Nat) (c : Chain) (q : Nat) : Nat := cnt (fun x => c.links x == some q) nv

/-- Number of entries with parent `q`. -/
def parCnt (nq : Nat) (c : Chain) (q : Nat) : Nat := cnt (c.isPar q) nq

/-- The chain invariant. `adj` is adjacency in the target graph. `ex q` is a number of
references to `q` that are counted in `refs` but not backed by a link or a child; it is
zero between operations and lets the steps of an operation be treated one by one. -/
structure CInv (nv nq : Nat) (adj : Nat → Nat → Prop) (ex : Nat → Int) (c : Chain) : Prop where
  lab : c.label < nv
  dom : ∀ q e, c.data q = some e → q < nq
  ldom : ∀ x q, c.links x = some q → x < nv
  lin : ∀ x q, c.links x = some q → c.has q = true
  pin : ∀ q e, c.data q = some e → c.has e.parent = true
  ref : ∀ q e, c.data q = some e → e.refs = linkCnt nv c q + parCnt nq c q + ex q
  adj' : ∀ q e, c.data q = some e → e.parent = q ∨ adj q e.parent
  acyc : ∃ rk : Nat → Nat, ∀ q e, c.data q = some e → e.parent ≠ q → rk e.parent < rk q

abbrev zero : Nat → Int := fun _ => 0

variable {nv nq : Nat} {adj : Nat → Nat → Prop} {ex : Nat → Int} {c : Chain}

theorem has_iff {c : Chain} {q : Nat} : c.has q = true ↔ ∃ e, c.data q = some e := by
  simp [has, Option.isSome_iff_exists]

theorem CInv.congr {ex ex' : Nat → Int} (h : CInv nv nq adj ex c) (he : ∀ q, ex q = ex' q) :
    CInv nv nq adj ex' c := by
  have : ex = ex' := funext he
  subst this; exact h

theorem CInv.has_lt (h : CInv nv nq adj ex c) {q : Nat} (hq : c.has q = true) : q < nq := by
  obtain ⟨e, he⟩ := has_iff.1 hq; exact h.dom q e he

theorem isPar_iff {c : Chain} {q i : Nat} :
    c.isPar q i = true ↔ ∃ e, c.data i = some e ∧ e.parent = q := by
  unfold isPar; cases c.data i <;> simp

/-- no references to a missing qubit -/
theorem CInv.missing (h : CInv nv nq adj ex c) {q : Nat} (hq : c.has q = false) :
    linkCnt nv c q = 0 ∧ parCnt nq c q = 0 := by
  constructor
  · apply cnt_eq_zero.2
    intro i _
    by_contra hc
    have : c.links i = some q := by simpa using hc
    have := h.lin i q this; simp [hq] at this
  · apply cnt_eq_zero.2
    intro i _
    by_contra hc
    obtain ⟨e, he, hp⟩ := isPar_iff.1 (by simpa using hc)
    have := h.pin i e he
    rw [hp, hq] at this; simp at this

theorem empty_inv {l : Nat} (hl : l < nv) : CInv nv nq adj zero (empty l) where
  lab := hl
  dom := by intro q e h; simp [empty] at h
  ldom := by intro q e h; simp [empty] at h
  lin := by intro q e h; simp [empty] at h
  pin := by intro q e h; simp [empty] at h
  ref := by intro q e h; simp [empty] at h
  adj' := by intro q e h; simp [empty] at h
  acyc := ⟨fun _ => 0, by intro q e h; simp [empty] at h⟩

/-! ### bump -/

theorem bump_ok {c : Chain} {q : Nat} {d : Int} {e : Entry} (h : c.data q = some e) :
    bump c q d = .ok { c with data := upd c.data q (some { e with refs := e.refs + d }) } := by
  simp [bump, h]

theorem bump_spec {c : Chain} {q : Nat} {d : Int} (h : c.has q = true) :
    ∃ c', bump c q d = .ok c' ∧ c'.label = c.label ∧ c'.links = c.links ∧
      (∀ i, c'.has i = c.has i) ∧
      (∀ i, (c'.data i).map Entry.parent = (c.data i).map Entry.parent) ∧
      (∀ i e, c.data i = some e → ∃ e', c'.data i = some e' ∧ e'.parent = e.parent ∧
        e'.refs = e.refs + (if i = q then d else 0)) := by
  obtain ⟨e, he⟩ := has_iff.1 h
  refine ⟨_, bump_ok he, rfl, rfl, ?_, ?_, ?_⟩
  · intro i; by_cases hi : i = q
    · subst hi; simp [has, he]
    · simp [has, hi]
  · intro i; by_cases hi : i = q
    · subst hi; simp [he]
    · simp [hi]
  · intro i e' he'
    by_cases hi : i = q
    · subst hi; rw [he] at he'; cases he'; simp
    · exact ⟨e', by simp [hi, he'], rfl, by simp [hi]⟩

theorem isPar_congr {c c' : Chain}
    (h : ∀ i, (c'.data i).map Entry.parent = (c.data i).map Entry.parent) (q i : Nat) :
    c'.isPar q i = c.isPar q i := by
  have := h i
  unfold isPar
  cases hd : c.data i <;> cases hd' : c'.data i <;> simp_all

/-- the chain with `refs` of `q` changed by `d`, as an invariant step -/
theorem CInv.bump (h : CInv nv nq adj ex c) {q : Nat} {d : Int} (hq : c.has q = true) :
    ∃ c', Chain.bump c q d = .ok c' ∧ CInv nv nq adj (fun i => ex i + if i = q then d else 0) c' ∧
      c'.label = c.label ∧ c'.links = c.links ∧ (∀ i, c'.has i = c.has i) ∧
      (∀ i, (c'.data i).map Entry.parent = (c.data i).map Entry.parent) := by
  obtain ⟨c', hb, hlab, hlinks, hhas, hpar, hent⟩ := bump_spec (d := d) hq
  refine ⟨c', hb, ?_, hlab, hlinks, hhas, hpar⟩
  have back : ∀ i e', c'.data i = some e' → ∃ e, c.data i = some e ∧ e'.parent = e.parent ∧
        e'.refs = e.refs + (if i = q then d else 0) := by
    intro i e' he'
    have : c.has i = true := by rw [← hhas]; exact has_iff.2 ⟨e', he'⟩
    obtain ⟨e, he⟩ := has_iff.1 this
    obtain ⟨e'', he'', hp, hr⟩ := hent i e he
    rw [he'] at he''; cases he''
    exact ⟨e, he, hp, hr⟩
  obtain ⟨rk, hrk⟩ := h.acyc
  constructor
  · rw [hlab]; exact h.lab
  · intro i e' he'; obtain ⟨e, he, _⟩ := back i e' he'; exact h.dom i e he
  · intro x i hx; rw [hlinks] at hx; exact h.ldom x i hx
  · intro x i hx; rw [hlinks] at hx; rw [hhas]; exact h.lin x i hx
  · intro i e' he'; obtain ⟨e, he, hp, _⟩ := back i e' he'
    rw [hp, hhas]; exact h.pin i e he
  · intro i e' he'
    obtain ⟨e, he, hp, hr⟩ := back i e' he'
    have h1 : linkCnt nv c' i = linkCnt nv c i := by unfold linkCnt; rw [hlinks]
    have h2 : parCnt nq c' i = parCnt nq c i := cnt_congr (fun j _ => isPar_congr hpar i j)
    rw [hr, h.ref i e he, h1, h2]; omega
  · intro i e' he'; obtain ⟨e, he, hp, _⟩ := back i e' he'
    rw [hp]; exact h.adj' i e he
  · refine ⟨rk, ?_⟩
    intro i e' he'; obtain ⟨e, he, hp, _⟩ := back i e' he'
    rw [hp]; exact hrk i e he

/-! ### links -/

/-- storing a link consumes one unbacked reference -/
theorem CInv.addLink (h : CInv nv nq adj ex c) {x q : Nat} (hx : x < nv)
    (hnone : c.links x = none) (hq : c.has q = true) :
    CInv nv nq adj (fun i => ex i - if i = q then 1 else 0)
      { c with links := upd c.links x (some q) } where
  lab := h.lab
  dom := h.dom
  ldom := by
    intro y p hy
    by_cases hyx : y = x
    · rw [hyx]; exact hx
    · simp [hyx] at hy; exact h.ldom y p hy
  lin := by
    intro y p hy
    by_cases hyx : y = x
    · subst hyx; simp at hy; subst hy; exact hq
    · simp [hyx] at hy; exact h.lin y p hy
  pin := h.pin
  ref := by
    intro i e he
    have h1 : (linkCnt nv { c with links := upd c.links x (some q) } i : Int) =
        linkCnt nv c i + if i = q then 1 else 0 := by
      have := cnt_change (p := fun y => c.links y == some i)
        (p' := fun y => upd c.links x (some q) y == some i) (k := x) hx
        (by intro j hj; simp [hj])
      simp only [hnone, upd_same] at this
      unfold linkCnt
      rw [this]
      by_cases hiq : i = q
      · subst hiq; simp
      · have : ¬ q = i := fun h => hiq h.symm
        simp [hiq, this, ind]
    have h2 : parCnt nq { c with links := upd c.links x (some q) } i = parCnt nq c i := rfl
    rw [h1, h2, h.ref i e he]; omega
  adj' := h.adj'
  acyc := h.acyc

/-- removing a link leaves one unbacked reference -/
theorem CInv.delLink (h : CInv nv nq adj ex c) {x q : Nat} (hxq : c.links x = some q) :
    CInv nv nq adj (fun i => ex i + if i = q then 1 else 0)
      { c with links := upd c.links x none } where
  lab := h.lab
  dom := h.dom
  ldom := by
    intro y p hy
    by_cases hyx : y = x
    · rw [hyx]; exact h.ldom x q hxq
    · simp [hyx] at hy; exact h.ldom y p hy
  lin := by
    intro y p hy
    by_cases hyx : y = x
    · subst hyx; simp at hy
    · simp [hyx] at hy; exact h.lin y p hy
  pin := h.pin
  ref := by
    intro i e he
    have h1 : (linkCnt nv { c with links := upd c.links x none } i : Int) =
        linkCnt nv c i - if i = q then 1 else 0 := by
      have := cnt_change (p := fun y => c.links y == some i)
        (p' := fun y => upd c.links x none y == some i) (k := x) (h.ldom x q hxq)
        (by intro j hj; simp [hj])
      simp only [hxq, upd_same] at this
      unfold linkCnt
      rw [this]
      by_cases hiq : i = q
      · subst hiq; simp
      · have : ¬ q = i := fun h => hiq h.symm
        simp [hiq, this, ind]
    have h2 : parCnt nq { c with links := upd c.links x none } i = parCnt nq c i := rfl
    rw [h1, h2, h.ref i e he]; omega
  adj' := h.adj'
  acyc := h.acyc

/-- Shape of a chain: which qubits with which parents. -/
def parents (c : Chain) (i : Nat) : Option Nat := (c.data i).map Entry.parent

theorem parents_has {c : Chain} {i : Nat} : (c.parents i).isSome = c.has i := by
  simp [parents, has]

theorem has_congr {c c' : Chain} (h : c'.parents = c.parents) (i : Nat) : c'.has i = c.has i := by
  rw [← parents_has, ← parents_has, h]

theorem CInv.setLink (h : CInv nv nq adj ex c) {x q : Nat} (hx : x < nv)
    (hnone : c.links x = none) (hq : c.has q = true) :
    ∃ c', Chain.setLink c x q = .ok c' ∧ CInv nv nq adj ex c' ∧ c'.label = c.label ∧
      c'.links = upd c.links x (some q) ∧ c'.parents = c.parents := by
  have h1 := h.addLink hx hnone hq
  obtain ⟨c', hb, hinv, hlab, hlinks, hhas, hpar⟩ := h1.bump (q := q) (d := 1) hq
  refine ⟨c', hb, hinv.congr ?_, hlab, hlinks, funext hpar⟩
  intro i; omega

theorem CInv.dropLink (h : CInv nv nq adj ex c) {x q : Nat} (hxq : c.links x = some q) :
    ∃ c', Chain.dropLink c x = .ok (c', some q) ∧ CInv nv nq adj ex c' ∧ c'.label = c.label ∧
      c'.links = upd c.links x none ∧ c'.parents = c.parents := by
  have hq := h.lin x q hxq
  obtain ⟨c1, hb, hinv, hlab, hlinks, hhas, hpar⟩ := h.bump (q := q) (d := -1) hq
  refine ⟨{ c1 with links := upd c1.links x none }, ?_, ?_, hlab, ?_, ?_⟩
  · simp [Chain.dropLink, hxq, hb, bind, Except.bind]
  · refine (hinv.delLink (x := x) (q := q) (by rw [hlinks]; exact hxq)).congr ?_
    intro i; split <;> omega
  · dsimp; rw [hlinks]
  · funext i; exact hpar i

theorem dropLink_none {x : Nat} (hx : c.links x = none) :
    Chain.dropLink c x = .ok (c, none) := by simp [Chain.dropLink, hx]

/-! ### leaves -/

/-- inserting a leaf entry with `refs = 0` -/
theorem CInv.insLeaf (h : CInv nv nq adj ex c) {q p : Nat} (hq : c.has q = false)
    (hp : c.has p = true) (hlt : q < nq) (ha : adj q p) (hex : ex q = 0) :
    CInv nv nq adj (fun i => ex i - if i = p then 1 else 0)
      { c with data := upd c.data q (some ⟨p, 0⟩) } := by
  have hqp : q ≠ p := by intro hc; rw [hc, hp] at hq; simp at hq
  have hnone : c.data q = none := by simpa [has] using hq
  obtain ⟨hl0, hp0⟩ := h.missing hq
  obtain ⟨rk, hrk⟩ := h.acyc
  have hparcnt : ∀ i, (parCnt nq { c with data := upd c.data q (some ⟨p, 0⟩) } i : Int) =
      parCnt nq c i + if i = p then 1 else 0 := by
    intro i
    have := cnt_change (p := c.isPar i)
        (p' := isPar { c with data := upd c.data q (some ⟨p, 0⟩) } i) (k := q) hlt
        (by intro j hj; simp [isPar, hj])
    unfold parCnt
    rw [this]
    simp only [isPar, hnone, upd_same]
    by_cases hip : i = p
    · subst hip; simp
    · have : ¬ p = i := fun h => hip h.symm
      simp [hip, this, ind]
  constructor
  · exact h.lab
  · intro i e he
    by_cases hi : i = q
    · rw [hi]; exact hlt
    · simp [hi] at he; exact h.dom i e he
  · exact h.ldom
  · intro x i hx
    have := h.lin x i hx
    by_cases hi : i = q
    · simp [has, hi]
    · simpa [has, hi] using this
  · intro i e he
    by_cases hi : i = q
    · subst hi; simp at he; subst he
      simpa [has, hqp.symm] using hp
    · simp [hi] at he
      have := h.pin i e he
      by_cases hpq : e.parent = q
      · simp [has, hpq]
      · simpa [has, hpq] using this
  · intro i e he
    have hl : linkCnt nv { c with data := upd c.data q (some ⟨p, 0⟩) } i = linkCnt nv c i := rfl
    rw [hl, hparcnt i]
    by_cases hi : i = q
    · subst hi; simp at he; subst he
      simp [hl0, hp0, hqp, hex]
    · simp [hi] at he
      rw [h.ref i e he]; omega
  · intro i e he
    by_cases hi : i = q
    · subst hi; simp at he; subst he; exact Or.inr ha
    · simp [hi] at he; exact h.adj' i e he
  · refine ⟨upd rk q (rk p + 1), ?_⟩
    intro i e he hne
    by_cases hi : i = q
    · subst hi; simp at he; subst he
      simp [hqp.symm]
    · simp [hi] at he
      have hpar : e.parent ≠ q := by
        intro hc
        have := h.pin i e he
        rw [hc, hq] at this; simp at this
      simp [hi, hpar]
      exact hrk i e he hne

/-- erasing an unreferenced entry -/
theorem CInv.delLeaf (h : CInv nv nq adj ex c) {q : Nat} {e : Entry} (he : c.data q = some e)
    (hl : linkCnt nv c q = 0) (hp : parCnt nq c q = 0) :
    CInv nv nq adj (fun i => ex i + if i = e.parent then 1 else 0)
      { c with data := upd c.data q none } := by
  obtain ⟨rk, hrk⟩ := h.acyc
  have hlt := h.dom q e he
  have hnl : ∀ x i, c.links x = some i → i ≠ q := by
    intro x i hx hc
    subst hc
    have := cnt_eq_zero.1 hl x (h.ldom x i hx)
    simp [hx] at this
  have hnp : ∀ i e', c.data i = some e' → e'.parent ≠ q := by
    intro i e' he' hc
    have := cnt_eq_zero.1 hp i (h.dom i e' he')
    simp [isPar, he', hc] at this
  have hparcnt : ∀ i, (parCnt nq { c with data := upd c.data q none } i : Int) =
      parCnt nq c i - if i = e.parent then 1 else 0 := by
    intro i
    have := cnt_change (p := c.isPar i)
        (p' := isPar { c with data := upd c.data q none } i) (k := q) hlt
        (by intro j hj; simp [isPar, hj])
    unfold parCnt
    rw [this]
    simp only [isPar, he, upd_same]
    by_cases hip : i = e.parent
    · subst hip; simp
    · have : ¬ e.parent = i := fun h => hip h.symm
      simp [hip, this, ind]
  have sub : ∀ i e', upd c.data q none i = some e' → i ≠ q ∧ c.data i = some e' := by
    intro i e' hi
    by_cases hiq : i = q
    · subst hiq; simp at hi
    · simp [hiq] at hi; exact ⟨hiq, hi⟩
  constructor
  · exact h.lab
  · intro i e' hi; exact h.dom i e' (sub i e' hi).2
  · exact h.ldom
  · intro x i hx
    have := h.lin x i hx
    simpa [has, hnl x i hx] using this
  · intro i e' hi
    have hi' := (sub i e' hi).2
    have := h.pin i e' hi'
    simpa [has, hnp i e' hi'] using this
  · intro i e' hi
    have hi' := (sub i e' hi).2
    have hl : linkCnt nv { c with data := upd c.data q none } i = linkCnt nv c i := rfl
    rw [hl, hparcnt i, h.ref i e' hi']; omega
  · intro i e' hi; exact h.adj' i e' (sub i e' hi).2
  · refine ⟨rk, ?_⟩
    intro i e' hi; exact hrk i e' (sub i e' hi).2

theorem CInv.addLeaf (h : CInv nv nq adj ex c) {w : Wt} {q p : Nat} (hq : c.has q = false)
    (hp : c.has p = true) (hlt : q < nq) (ha : adj q p) (hex : ex q = 0) :
    ∃ c', Chain.addLeaf nq c w q p = .ok (c', upd w q (w q + 1)) ∧ CInv nv nq adj ex c' ∧
      c'.label = c.label ∧ c'.links = c.links ∧ c'.parents = upd c.parents q (some p) ∧
      (∀ i e, c.data i = some e → ∃ e', c'.data i = some e' ∧ e.refs ≤ e'.refs) ∧
      (∃ e, c'.data p = some e ∧ 1 ≤ e.refs - ex p) := by
  have hqp : q ≠ p := by intro hc; rw [hc, hp] at hq; simp at hq
  have h1 := h.insLeaf hq hp hlt ha hex
  have hp1 : has { c with data := upd c.data q (some ⟨p, 0⟩) } p = true := by
    simpa [has, hqp.symm] using hp
  obtain ⟨c', hb, hinv, hlab, hlinks, hhas, hpar⟩ := h1.bump (q := p) (d := 1) hp1
  have hinv' : CInv nv nq adj ex c' := hinv.congr (by intro i; split <;> omega)
  refine ⟨c', ?_, hinv', hlab, hlinks, ?_, ?_, ?_⟩
  · simp [Chain.addLeaf, hlt, hq, hb, bind, Except.bind]
  · funext i
    have := hpar i
    by_cases hi : i = q
    · subst hi; simp [parents, this]
    · simp [parents, this, hi]
  · intro i e he
    obtain ⟨e0, he0⟩ := has_iff.1 hp1
    rw [bump_ok he0] at hb; cases hb
    have hiq : i ≠ q := by intro hc; subst hc; simp [has, he] at hq
    by_cases hip : i = p
    · subst hip
      simp [hiq] at he0
      rw [he] at he0; cases he0
      exact ⟨_, by simp; rfl, by simp⟩
    · exact ⟨e, by simp [hip, hiq, he], le_refl _⟩
  · have hp' : c'.has p = true := by rw [hhas]; exact hp1
    obtain ⟨e, he⟩ := has_iff.1 hp'
    refine ⟨e, he, ?_⟩
    have := hinv'.ref p e he
    have hpc : 0 < parCnt nq c' p := by
      apply cnt_pos hlt
      rw [isPar_congr hpar]
      simp [isPar]
    omega

theorem CInv.trimLeaf_zero (h : CInv nv nq adj ex c) {w : Wt} {q : Nat} {e : Entry}
    (he : c.data q = some e) (hr : e.refs = 0) (hex : 0 ≤ ex q) :
    ∃ c', Chain.trimLeaf c w q = .ok (c', upd w q (w q - 1), e.parent) ∧ CInv nv nq adj ex c' ∧
      e.parent ≠ q ∧ adj q e.parent ∧ c'.label = c.label ∧ c'.links = c.links ∧
      c'.parents = upd c.parents q none ∧ c'.has e.parent = true := by
  have href := h.ref q e he
  have hl : linkCnt nv c q = 0 := by omega
  have hp : parCnt nq c q = 0 := by omega
  have hne : e.parent ≠ q := by
    intro hc
    have := cnt_eq_zero.1 hp q (h.dom q e he)
    simp [isPar, he, hc] at this
  have hpq := h.pin q e he
  obtain ⟨c1, hb, hinv, hlab, hlinks, hhas, hpar⟩ := h.bump (q := e.parent) (d := -1) hpq
  have he1 : c1.data q = some e := by
    obtain ⟨e0, he0⟩ := has_iff.1 hpq
    rw [bump_ok he0] at hb; cases hb
    simp [hne.symm, he]
  have hl1 : linkCnt nv c1 q = 0 := by unfold linkCnt at *; rw [hlinks]; exact hl
  have hp1 : parCnt nq c1 q = 0 := by
    rw [← hp]; exact cnt_congr (fun j _ => isPar_congr hpar q j)
  have h2 := hinv.delLeaf he1 hl1 hp1
  refine ⟨{ c1 with data := upd c1.data q none }, ?_, ?_, hne, ?_, hlab, hlinks, ?_, ?_⟩
  · simp [Chain.trimLeaf, he, hr, hb, bind, Except.bind]
  · refine h2.congr ?_
    intro i; split <;> omega
  · rcases h.adj' q e he with h | h
    · exact absurd h hne
    · exact h
  · funext i
    by_cases hi : i = q
    · subst hi; simp [parents]
    · have := hpar i
      simp [parents, hi, this]
  · simp only [has, upd_ne _ _ hne]
    have := hhas e.parent
    simp only [has] at this
    rw [this]; exact hpq

theorem trimLeaf_pos {w : Wt} {q : Nat} {e : Entry}
    (he : c.data q = some e) (hr : e.refs ≠ 0) :
    Chain.trimLeaf c w q = .ok (c, w, q) := by
  simp [Chain.trimLeaf, he, hr]

/-! ### trim_branch -/

/-- `c'` arises from `c` by deleting qubits. -/
def Shrinks (c c' : Chain) : Prop :=
  c'.label = c.label ∧ c'.links = c.links ∧
  ∀ i, c'.parents i = c.parents i ∨ c'.parents i = none

theorem Shrinks.refl (c : Chain) : Shrinks c c := ⟨rfl, rfl, fun _ => Or.inl rfl⟩

theorem Shrinks.trans {a b c : Chain} (h1 : Shrinks a b) (h2 : Shrinks b c) : Shrinks a c := by
  refine ⟨h2.1.trans h1.1, h2.2.1.trans h1.2.1, fun i => ?_⟩
  rcases h2.2.2 i with h | h
  · rw [h]; exact h1.2.2 i
  · exact Or.inr h

/-- fills change exactly by the change of membership of one chain -/
def WD (c : Chain) (w : Wt) (c' : Chain) (w' : Wt) : Prop :=
  ∀ q, w' q = w q + ind (c'.has q) - ind (c.has q)

theorem WD.refl (c : Chain) (w : Wt) : WD c w c w := fun q => by omega

theorem WD.trans {c w c' w' c'' w''} (h1 : WD c w c' w') (h2 : WD c' w' c'' w'') :
    WD c w c'' w'' := fun q => by have := h1 q; have := h2 q; omega

theorem WD.of_eq {c c' : Chain} {w : Wt} (h : ∀ q, c'.has q = c.has q) : WD c w c' w :=
  fun q => by rw [h]; omega

theorem WD.del {c c' : Chain} {w : Wt} {q : Nat} (hp : c'.parents = upd c.parents q none)
    (hq : c.has q = true) : WD c w c' (upd w q (w q - 1)) := by
  intro i
  rw [← parents_has, ← parents_has (c := c), hp]
  by_cases hi : i = q
  · subst hi; simp [parents_has, hq]
  · simp [hi]

theorem WD.ins {c c' : Chain} {w : Wt} {q p : Nat} (hp : c'.parents = upd c.parents q (some p))
    (hq : c.has q = false) : WD c w c' (upd w q (w q + 1)) := by
  intro i
  rw [← parents_has, ← parents_has (c := c), hp]
  by_cases hi : i = q
  · subst hi; simp [parents_has, hq]
  · simp [hi]

/-- result of trimming: the branch is gone down to a referenced qubit -/
theorem CInv.trimBranchLoop (fuel : Nat) : ∀ {c : Chain} {w : Wt} {q : Nat},
    CInv nv nq adj ex c → (∀ i, 0 ≤ ex i) → c.has q = true → c.size nq < fuel →
    ∃ c' w' p, Chain.trimBranchLoop fuel c w q = .ok (c', w', p) ∧ CInv nv nq adj ex c' ∧
      Shrinks c c' ∧ WD c w c' w' ∧ c'.has p = true ∧
      (∀ i, c.has i = true → 0 < ex i → c'.has i = true) := by
  induction fuel with
  | zero => intro c w q _ _ _ h; omega
  | succ fuel ih =>
    intro c w q h hex hq hsz
    obtain ⟨e, he⟩ := has_iff.1 hq
    by_cases hr : e.refs = 0
    · obtain ⟨c1, ht, hinv, hne, _, hlab, hlinks, hpar, hhp⟩ := h.trimLeaf_zero (w := w) he hr (hex q)
      have hsize : c1.size nq < c.size nq := by
        have := cnt_change (p := c.has) (p' := c1.has) (k := q) (h.dom q e he) (by
          intro i hi
          rw [← parents_has, ← parents_has (c := c), hpar]; simp [hi])
        have h1 : c1.has q = false := by rw [← parents_has, hpar]; simp
        rw [hq, h1] at this
        simp at this
        unfold size; omega
      obtain ⟨c', w', p, hl, hi', hsh, hwd, hp', hkeep⟩ :=
        ih (w := upd w q (w q - 1)) hinv hex hhp (by omega)
      refine ⟨c', w', p, ?_, hi', ?_, ?_, hp', ?_⟩
      · simp only [Chain.trimBranchLoop, ht, bind, Except.bind, hne, if_false]
        exact hl
      · refine Shrinks.trans ⟨hlab, hlinks, fun i => ?_⟩ hsh
        rw [hpar]
        by_cases hi : i = q
        · subst hi; simp
        · simp [hi]
      · exact (WD.del hpar hq).trans hwd
      · intro i hi hpos
        apply hkeep i _ hpos
        have : i ≠ q := by
          intro hc; subst hc
          have := h.ref i e he
          omega
        rw [← parents_has, hpar]; simp [this, parents_has, hi]
    · refine ⟨c, w, q, ?_, h, Shrinks.refl c, WD.refl c w, hq, fun i hi _ => hi⟩
      simp [Chain.trimBranchLoop, trimLeaf_pos he hr, bind, Except.bind]

theorem size_le (c : Chain) : c.size nq ≤ nq := cnt_le

theorem CInv.trimBranch (h : CInv nv nq adj ex c) {w : Wt} {q : Nat} (hex : ∀ i, 0 ≤ ex i)
    (hq : c.has q = true) :
    ∃ c' w' p, Chain.trimBranch nq c w q = .ok (c', w', p) ∧ CInv nv nq adj ex c' ∧
      Shrinks c c' ∧ WD c w c' w' ∧ c'.has p = true ∧
      (∀ i, c.has i = true → 0 < ex i → c'.has i = true) :=
  CInv.trimBranchLoop (nq + 1) h hex hq (by have := size_le (nq := nq) c; omega)

end Chain
end MM
