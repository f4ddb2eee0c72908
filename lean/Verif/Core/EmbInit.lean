import Verif.Core.EmbBuild

/-! The initial embedding, copying, and statistics. -/

namespace MM

open Relation
open Chain (CInv zero Near SelfPres Tight WD WD2 PathTo)

variable {P : Prob} {R : Nat → Nat → Prop} {E : Emb}

/-! ### operator= -/

theorem Emb.Shape.congr {E' : Emb} (h : E.Shape P R) (hc : ∀ v, v < P.N → E'.chains v = E.chains v) :
    E'.Shape P R := by
  have lt : ∀ v, v < P.nv → v < P.N := fun v hv => by unfold Prob.N; omega
  refine ⟨?_, ?_, ?_, ?_, ?_, ?_, ?_⟩
  · intro v hv; rw [hc v hv]; exact h.cinv v hv
  · intro v hv; rw [hc v hv]; exact h.lab v hv
  · intro u v q hu hv; rw [hc u hu, hc v hv]; exact h.sym u v q hu hv
  · intro u v q hu hv; rw [hc u hu]; exact h.nbr u v q hu hv
  · intro v r hv; rw [hc v hv]; exact h.root v r hv
  · intro v q hv; rw [hc v (lt v hv)]; exact h.dom v q hv
  · intro v q hv hvN; rw [hc v hvN]; exact h.fixd v q hv hvN

/-- Copying an embedding gives its chains and recomputes exact fills. -/
theorem EInv.copy {E other : Emb} (hE : E.Exact P) (hl : ∀ v, v < P.N → (E.chains v).label = v)
    (ho : other.Shape P R) :
    EInv P R (E.copy P other) ∧ (∀ v, v < P.N → (E.copy P other).chains v = other.chains v) := by
  have key : ∀ n, n ≤ P.N →
      let E' := (List.range n).foldl (init := E) fun E v =>
        let (c, w) := Chain.assign (E.chains v) E.w (other.chains v)
        { E with chains := upd E.chains v c, w := w }
      E'.Exact P ∧ (∀ v, v < P.N → (E'.chains v).label = v) ∧
        ∀ v, v < n → E'.chains v = other.chains v := by
    intro n
    induction n with
    | zero => intro _; exact ⟨hE, hl, by intro v hv; omega⟩
    | succ n ih =>
      intro hn
      obtain ⟨h1, h2, h3⟩ := ih (by omega)
      rw [List.range_succ, List.foldl_append]
      simp only [List.foldl_cons, List.foldl_nil]
      generalize hE' : (List.range n).foldl (init := E) (fun E v =>
        let (c, w) := Chain.assign (E.chains v) E.w (other.chains v)
        { E with chains := upd E.chains v c, w := w }) = E'
      rw [hE'] at h1 h2 h3
      have hch : (Chain.assign (E'.chains n) E'.w (other.chains n)).1 = other.chains n := by
        simp only [Chain.assign, Chain.clear, Chain.empty, h2 n (by omega)]
        have := ho.lab n (by omega)
        cases hoc : other.chains n with
        | mk l d k => rw [hoc] at this; simp only at this ⊢; rw [this]
      refine ⟨Exact.one h1 (by omega) ?_, ?_, ?_⟩
      · intro q
        simp only [Chain.assign, Chain.clear, Chain.has]
        omega
      · intro v hv
        by_cases hvn : v = n
        · subst hvn; simp only [upd_same]; rw [hch]; exact ho.lab v hv
        · simp only [ne_eq, hvn, not_false_eq_true, upd_ne]; exact h2 v hv
      · intro v hv
        by_cases hvn : v = n
        · subst hvn; simp only [upd_same]; exact hch
        · simp only [ne_eq, hvn, not_false_eq_true, upd_ne]; exact h3 v (by omega)
  obtain ⟨h1, h2, h3⟩ := key P.N (le_refl _)
  exact ⟨⟨Emb.Shape.congr ho h3, h1⟩, h3⟩

theorem empty_exact : Emb.empty.Exact P := by
  intro q
  have : cnt (fun v => (Emb.empty.chains v).has q) P.N = 0 := cnt_eq_zero.2 (fun _ _ => rfl)
  rw [this]; rfl

/-! ### adoption -/

/-- moving an isolated qubit below another one -/
theorem CInv.adopt {nv nq : Nat} {adj : Nat → Nat → Prop} {c : Chain} {p q : Nat}
    (h : CInv nv nq adj zero c) (hq : c.parents q = some q) (hp : c.has p = true)
    (hpq : p ≠ q) (ha : adj q p) (hiso : ∀ i, c.parents i = some q → i = q) :
    ∃ c', Chain.adopt c p q = .ok c' ∧ CInv nv nq adj zero c' ∧ c'.label = c.label ∧
      c'.links = c.links ∧ c'.parents = upd c.parents q (some p) := by
  obtain ⟨e, he, hep⟩ : ∃ e, c.data q = some e ∧ e.parent = q := by
    simpa [Chain.parents] using hq
  obtain ⟨e2, he2⟩ := Chain.has_iff.1 hp
  let c1 : Chain := { c with data := upd c.data q (some ⟨p, e.refs - 1⟩) }
  have hb : Chain.bump c1 p 1 = .ok { c1 with data := upd c1.data p (some { e2 with refs := e2.refs + 1 }) } := by
    apply Chain.bump_ok; simp [c1, hpq, he2]
  let c2 : Chain := { c1 with data := upd c1.data p (some { e2 with refs := e2.refs + 1 }) }
  have hpar : c2.parents = upd c.parents q (some p) := by
    funext i
    simp only [c2, c1, Chain.parents]
    by_cases hip : i = p
    · subst hip; simp [hpq, he2, Chain.parents]
    · by_cases hiq : i = q
      · subst hiq; simp [hip]
      · simp [hip, hiq, Chain.parents]
  have hhas : ∀ i, c2.has i = c.has i := by
    intro i
    rw [← Chain.parents_has, hpar, ← Chain.parents_has]
    by_cases hiq : i = q
    · subst hiq; simp [hq]
    · simp [hiq]
  have dat : ∀ i x, c2.data i = some x → (i = q ∧ x = ⟨p, e.refs - 1⟩) ∨
      (i = p ∧ x = { e2 with refs := e2.refs + 1 }) ∨ (i ≠ p ∧ i ≠ q ∧ c.data i = some x) := by
    intro i x hx
    simp only [c2, c1] at hx
    by_cases hip : i = p
    · subst hip; simp at hx; exact Or.inr (Or.inl ⟨rfl, hx.symm⟩)
    · by_cases hiq : i = q
      · subst hiq; simp [hip] at hx; exact Or.inl ⟨rfl, hx.symm⟩
      · simp [hip, hiq] at hx; exact Or.inr (Or.inr ⟨hip, hiq, hx⟩)
  -- children counts
  have hpc : ∀ j, (Chain.parCnt nq c2 j : Int) =
      Chain.parCnt nq c j - (if j = q then 1 else 0) + (if j = p then 1 else 0) := by
    intro j
    have := cnt_change (p := c.isPar j) (p' := c2.isPar j) (k := q) (h.dom q e he) (by
      intro i hi
      have : c2.parents i = c.parents i := by rw [hpar]; simp [hi]
      simp only [Chain.parents] at this
      unfold Chain.isPar
      cases hd : c.data i <;> cases hd' : c2.data i <;> simp_all)
    have i1 : c.isPar j q = decide (j = q) := by
      simp only [Chain.isPar, he, hep, beq_eq_decide, decide_eq_decide]; exact eq_comm
    have i2 : c2.isPar j q = decide (j = p) := by
      have : c2.data q = some ⟨p, e.refs - 1⟩ := by simp [c2, c1, Ne.symm hpq]
      simp only [Chain.isPar, this, beq_eq_decide, decide_eq_decide]; exact eq_comm
    rw [i1, i2] at this
    unfold Chain.parCnt
    rw [this]
    simp only [ind, decide_eq_true_eq]
  refine ⟨c2, ?_, ?_, rfl, rfl, hpar⟩
  · simp only [Chain.adopt, he]
    show (do let c1 ← Chain.bump c1 p 1; Except.ok c1) = _
    rw [hb]; rfl
  have lc : ∀ j, Chain.linkCnt nv c2 j = Chain.linkCnt nv c j := fun j => rfl
  constructor
  · exact h.lab
  · intro i x hx
    have : c.has i = true := by rw [← hhas]; exact Chain.has_iff.2 ⟨x, hx⟩
    exact h.has_lt this
  · exact h.ldom
  · intro x i hx; rw [hhas]; exact h.lin x i hx
  · intro i x hx
    rw [hhas]
    rcases dat i x hx with ⟨_, rfl⟩ | ⟨_, rfl⟩ | ⟨_, _, hd⟩
    · exact hp
    · exact h.pin p e2 he2
    · exact h.pin i x hd
  · intro i x hx
    rw [lc, hpc]
    rcases dat i x hx with ⟨rfl, rfl⟩ | ⟨rfl, rfl⟩ | ⟨h1, h2, hd⟩
    · have := h.ref i e he
      simp only [if_true, Ne.symm hpq, if_false, zero] at *; omega
    · have := h.ref i e2 he2
      simp only [if_true, hpq, if_false, zero] at *; omega
    · have := h.ref i x hd
      simp only [h1, h2, if_false, zero] at *; omega
  · intro i x hx
    rcases dat i x hx with ⟨rfl, rfl⟩ | ⟨rfl, rfl⟩ | ⟨_, _, hd⟩
    · exact Or.inr ha
    · exact h.adj' i e2 he2
    · exact h.adj' i x hd
  · obtain ⟨rk, hrk⟩ := h.acyc
    refine ⟨upd rk q (rk p + 1), ?_⟩
    intro i x hx hne
    rcases dat i x hx with ⟨rfl, rfl⟩ | ⟨rfl, rfl⟩ | ⟨h1, h2, hd⟩
    · simp [hpq]
    · have hnq : e2.parent ≠ q := by
        intro hc
        exact hpq (hiso i (by simp [Chain.parents, he2, hc]))
      simp only at hne ⊢
      simp [hpq, hnq]; exact hrk i e2 he2 hne
    · have hnq : x.parent ≠ q := by
        intro hc
        exact h2 (hiso i (by simp [Chain.parents, hd, hc]))
      simp [h2, hnq]; exact hrk i x hd hne

/-- number of qubits that are their own parent -/
def selfCnt (nq : Nat) (c : Chain) : Nat := cnt (fun i => c.parents i == some i) nq

/-- The search has reached `x`. -/
def Met (root : Nat) (c : Chain) (x : Nat) : Prop := x = root ∨ c.parents x ≠ some x

/-- Invariant of the adoption loop. -/
structure AInv (nv nq : Nat) (adj : Nat → Nat → Prop) (root : Nat) (c0 c : Chain)
    (stack : List Nat) : Prop where
  cinv : CInv nv nq adj zero c
  lab : c.label = c0.label
  links : c.links = c0.links
  has : ∀ i, c.has i = c0.has i
  rootp : c.parents root = some root
  stk : ∀ x ∈ stack, c.has x = true ∧ (x = root ∨ c.parents x ≠ some x)
  iso : ∀ q, q ≠ root → c.parents q = some q → ∀ i, c.parents i = some q → i = q

theorem adoptInner (wf : P.WF) {root : Nat} {c0 : Chain} {p : Nat} :
    ∀ (l : List Nat) {c : Chain} {stack : List Nat}, (∀ q ∈ l, q ∈ P.qn p) →
    AInv P.N P.Q P.adj root c0 c (p :: stack) → p < P.Q →
    Ok (l.foldlM (init := (c, stack)) fun (c, stack) q =>
      match c.data q with
      | none => (.ok (c, stack) : M (Chain × List Nat))
      | some e =>
        if q ≠ root ∧ e.parent = q then do
          let c ← Chain.adopt c p q
          .ok (c, q :: stack)
        else .ok (c, stack))
    (fun r => AInv P.N P.Q P.adj root c0 r.1 (p :: r.2) ∧
      r.2.length + selfCnt P.Q r.1 = stack.length + selfCnt P.Q c ∧
      (∀ q ∈ l, c.has q = true → Met root r.1 q) ∧ (∀ x, Met root c x → Met root r.1 x) ∧
      (∀ x ∈ stack, x ∈ r.2) ∧ ∀ x, Met root r.1 x → Met root c x ∨ x ∈ r.2) := by
  intro l
  induction l with
  | nil => intro c stack _ h _; exact Ok.pure ⟨h, rfl, by simp, fun _ h => h, fun _ h => h, fun _ h => Or.inl h⟩
  | cons q l ih =>
    intro c stack hl h hpQ
    rw [List.foldlM_cons]
    have ih' := fun {c} {stack} => ih (c := c) (stack := stack) (fun x hx => hl x (by simp [hx]))
    dsimp only
    cases hd : c.data q with
    | none => exact Ok.bind (Ok.pure (Q := fun r => r = (c, stack)) rfl) (by
        rintro _ rfl
        refine (ih' h hpQ).mono ?_
        rintro r ⟨r1, r2, r3, r4, r5, r6⟩
        refine ⟨r1, r2, fun x hx hh => ?_, r4, r5, r6⟩
        rcases List.mem_cons.1 hx with rfl | hx
        · rw [Chain.has_iff] at hh; obtain ⟨e, he⟩ := hh; rw [hd] at he; cases he
        · exact r3 x hx hh)
    | some e =>
      dsimp only
      split
      · next hcond =>
        obtain ⟨hqr, hep⟩ := hcond
        have hpar : c.parents q = some q := by simp [Chain.parents, hd, hep]
        obtain ⟨hph, hps⟩ := h.stk p (by simp)
        have hpq : p ≠ q := by
          rintro rfl
          rcases hps with h | h
          · exact hqr h
          · exact h hpar
        have hadj : P.adj q p := Or.inr ⟨hpQ, hl q (by simp)⟩
        obtain ⟨c', ha, k1, k2, k3, k4⟩ := CInv.adopt h.cinv hpar hph hpq hadj (h.iso q hqr hpar)
        have hhas' : ∀ i, c'.has i = c.has i := by
          intro i
          rw [← Chain.parents_has, k4, ← Chain.parents_has]
          by_cases hiq : i = q
          · subst hiq; simp [hpar]
          · simp [hiq]
        have hA : AInv P.N P.Q P.adj root c0 c' (p :: q :: stack) := by
          refine ⟨k1, k2.trans h.lab, k3.trans h.links, fun i => (hhas' i).trans (h.has i), ?_, ?_, ?_⟩
          · rw [k4]; simp [Ne.symm hqr, h.rootp]
          · intro x hx
            rw [hhas', k4]
            by_cases hxq : x = q
            · subst hxq
              refine ⟨Chain.has_iff.2 ⟨e, hd⟩, Or.inr ?_⟩
              simpa using hpq
            · simp only [ne_eq, hxq, not_false_eq_true, upd_ne]
              apply h.stk x
              simp only [List.mem_cons] at hx ⊢
              rcases hx with h | h | h
              · exact Or.inl h
              · exact absurd h hxq
              · exact Or.inr h
          · intro x hxr hx i hi
            rw [k4] at hx hi
            by_cases hxq : x = q
            · subst hxq; simp at hx; exact absurd hx hpq
            · simp only [ne_eq, hxq, not_false_eq_true, upd_ne] at hx
              by_cases hiq : i = q
              · subst hiq
                simp at hi; subst hi
                rcases hps with h' | h'
                · exact absurd h' hxr
                · exact absurd hx h'
              · simp only [ne_eq, hiq, not_false_eq_true, upd_ne] at hi
                exact h.iso x hxr hx i hi
        have hsc : selfCnt P.Q c' + 1 = selfCnt P.Q c := by
          have := cnt_change (p := fun i => c.parents i == some i)
            (p' := fun i => c'.parents i == some i) (k := q) (h.cinv.dom q e hd) (by
              intro i hi; rw [k4]; simp [hi])
          rw [k4] at this
          simp [hpar, ind, hpq] at this
          unfold selfCnt
          rw [k4]; omega
        refine Ok.bind (P := fun r => r = (c', q :: stack)) ?_ ?_
        · simp only [ha, bind, Except.bind]; exact Ok.pure rfl
        · rintro _ rfl
          refine (ih' hA hpQ).mono ?_
          rintro r ⟨r1, r2, r3, r4, r5, r6⟩
          have hm : ∀ x, Met root c x → Met root c' x := by
            intro x hx
            rcases hx with hx | hx
            · exact Or.inl hx
            · right
              rw [k4]
              by_cases hxq : x = q
              · subst hxq; exact absurd hpar hx
              · simpa [hxq] using hx
          have hmq : Met root c' q := by
            right; rw [k4]; simpa using hpq
          refine ⟨r1, ?_, fun x hx hh => ?_, fun x hx => r4 x (hm x hx), fun x hx => r5 x (by simp [hx]), fun x hx => ?_⟩
          · simp only [List.length_cons] at r2
            omega
          · rcases List.mem_cons.1 hx with rfl | hx
            · exact r4 x hmq
            · exact r3 x hx (by rw [hhas']; exact hh)
          · rcases r6 x hx with h' | h'
            · by_cases hxq : x = q
              · subst hxq; exact Or.inr (r5 x (by simp))
              · left
                rcases h' with h' | h'
                · exact Or.inl h'
                · right; rw [k4] at h'; simpa [hxq] using h'
            · exact Or.inr h'
      · next hcond =>
        exact Ok.bind (Ok.pure (Q := fun r => r = (c, stack)) rfl) (by
          rintro _ rfl
          refine (ih' h hpQ).mono ?_
          rintro r ⟨r1, r2, r3, r4, r5, r6⟩
          refine ⟨r1, r2, fun x hx hh => ?_, r4, r5, r6⟩
          rcases List.mem_cons.1 hx with rfl | hx
          · refine r4 x ?_
            by_cases hxr : x = root
            · exact Or.inl hxr
            · right
              intro hc
              refine hcond ⟨hxr, ?_⟩
              simpa [Chain.parents, hd] using hc
          · exact r3 x hx hh)

theorem selfCnt_pos {nv nq : Nat} {adj : Nat → Nat → Prop} {root : Nat} {c0 c : Chain}
    {st : List Nat} (h : AInv nv nq adj root c0 c st) : 0 < selfCnt nq c := by
  have hr : c.has root = true := by rw [← Chain.parents_has, h.rootp]; rfl
  exact cnt_pos (h.cinv.has_lt hr) (by simp [h.rootp])

theorem size_congr {c c' : Chain} {nq : Nat} (h : ∀ i, c'.has i = c.has i) :
    c'.size nq = c.size nq := cnt_congr (fun i _ => h i)

/-- The neighbours of what the search has reached and left are reached. -/
def Spread (P : Prob) (root : Nat) (c : Chain) (stack : List Nat) : Prop :=
  ∀ x, c.has x = true → Met root c x → x ∉ stack → ∀ q ∈ P.qn x, c.has q = true → Met root c q

theorem adoptLoop_spec (wf : P.WF) {root : Nat} {c0 : Chain} (fuel : Nat) :
    ∀ {c : Chain} {stack : List Nat} {hits : Nat},
    AInv P.N P.Q P.adj root c0 c stack →
    hits + stack.length + selfCnt P.Q c = c0.size P.Q + 1 →
    c0.size P.Q < fuel + hits → Spread P root c stack →
    Ok (Emb.adoptLoop P root fuel c stack hits) (fun r => AInv P.N P.Q P.adj root c0 r.1 [] ∧
      r.2 + selfCnt P.Q r.1 = c0.size P.Q + 1 ∧ Spread P root r.1 []) := by
  induction fuel with
  | zero =>
    intro c stack hits h hc hf hsp
    cases stack with
    | nil => exact Ok.pure ⟨h, by simpa using hc, hsp⟩
    | cons p stack =>
      exfalso
      have := selfCnt_pos h
      simp only [List.length_cons] at hc
      omega
  | succ fuel ih =>
    intro c stack hits h hc hf hsp
    cases stack with
    | nil => exact Ok.pure ⟨h, by simpa using hc, hsp⟩
    | cons p stack =>
      unfold Emb.adoptLoop
      have hpQ := h.cinv.has_lt (h.stk p (by simp)).1
      refine Ok.bind (adoptInner wf (P.qn p) (fun _ h => h) h hpQ) ?_
      rintro ⟨c', st'⟩ ⟨h1, h2, h3, h4, h5, h6⟩
      dsimp only at *
      have hh : ∀ i, c'.has i = c.has i := fun i => (h1.has i).trans (h.has i).symm
      refine ih ?_ ?_ ?_ ?_
      · exact { h1 with stk := fun x hx => h1.stk x (by simp [hx]) }
      · simp only [List.length_cons] at hc; omega
      · omega
      · intro x hx hm hs q hq hqh
        rw [hh] at hx hqh
        by_cases hxp : x = p
        · subst hxp; exact h3 q hq hqh
        · refine h4 q (hsp x hx ?_ ?_ q hq hqh)
          · rcases h6 x hm with h' | h'
            · exact h'
            · exact absurd h' hs
          · intro hc
            rcases List.mem_cons.1 hc with h' | h'
            · exact hxp h'
            · exact hs (h5 x h')

/-! ### the initial embedding -/

theorem Emb.Shape.toEInv (h : E.Shape P R) :
    EInv P R { E with w := fun q => cnt (fun v => (E.chains v).has q) P.N } :=
  ⟨Emb.Shape.congr h (fun _ _ => rfl), fun _ => rfl⟩

/-- Linking two chains without changing their qubits. -/
theorem Emb.Shape.linkPair (h : E.Shape P R) {a b q p : Nat}
    (ha : a < P.N) (hb : b < P.N) (hab : a ≠ b)
    (hla : (E.chains a).links b = none) (hlb : (E.chains b).links a = none)
    (hq : (E.chains a).has q = true) (hp : (E.chains b).has p = true) (hn : Near P.adj q p)
    (hna : a < P.nv → b ∈ P.vn a) (hnb : b < P.nv → a ∈ P.vn b) :
    ∃ ca cb, Chain.setLink (E.chains a) b q = .ok ca ∧
      Chain.setLink (E.chains b) a p = .ok cb ∧
      Emb.Shape P R { E with chains := upd (upd E.chains a ca) b cb } ∧
      (∀ v, ((upd (upd E.chains a ca) b cb) v).parents = (E.chains v).parents) ∧
      (∀ v x, v ≠ a → v ≠ b → ((upd (upd E.chains a ca) b cb) v).links x = (E.chains v).links x) ∧
      (∀ v, ((upd (upd E.chains a ca) b cb) v).links v = (E.chains v).links v) ∧
      ((upd (upd E.chains a ca) b cb) a).links b = some q ∧
      (∀ v x, ((E.chains v).links x).isSome = true → (((upd (upd E.chains a ca) b cb) v).links x).isSome = true) := by
  obtain ⟨ca, s1, k1, k2, k3, k4⟩ := (h.cinv a ha).setLink hb hla hq
  obtain ⟨cb, s2, l1, l2, l3, l4⟩ := (h.cinv b hb).setLink ha hlb hp
  refine ⟨ca, cb, s1, s2, ?_, ?_, ?_, ?_, by simp [hab, k3], ?_⟩
  · have := (h.toEInv).link2 (w' := fun q => cnt (fun v => (E.chains v).has q) P.N) ha hb hab k1 l1
      (k2.trans (h.lab a ha)) (l2.trans (h.lab b hb))
      k3 l3 hn (SelfPres.of_eq k4) (SelfPres.of_eq l4) hna hnb
      (by intro i hi hc; rw [Chain.has_congr k4] at hc; exact h.dom a i hi hc)
      (by intro i hi hc; rw [Chain.has_congr l4] at hc; exact h.dom b i hi hc)
      (fun _ => Chain.has_congr k4) (fun _ => Chain.has_congr l4)
      (by intro x; dsimp only; rw [Chain.has_congr k4, Chain.has_congr l4]; omega) (fr := E.fr)
    exact Emb.Shape.congr this.toShape (fun _ _ => rfl)
  · intro v
    by_cases hvb : v = b
    · subst hvb; simp [l4]
    · by_cases hva : v = a
      · subst hva; simp [hvb, k4]
      · simp [hva, hvb]
  · intro v x h1 h2; simp [h1, h2]
  · intro v
    by_cases hvb : v = b
    · subst hvb; simp [l3, Ne.symm hab]
    · by_cases hva : v = a
      · subst hva; simp [hvb, k3]
      · simp [hva, hvb]
  · intro v x hx
    by_cases hvb : v = b
    · subst hvb
      simp only [upd_same, l3]
      by_cases hxa : x = a
      · subst hxa; simp
      · simpa [hxa] using hx
    · by_cases hva : v = a
      · subst hva
        simp only [ne_eq, hvb, not_false_eq_true, upd_ne, upd_same, k3]
        by_cases hxb : x = b
        · subst hxb; simp
        · simpa [hxb] using hx
      · simpa [hva, hvb] using hx

theorem firstTouch_none {c : Chain} {qs : List Nat} (h : Emb.firstTouch P c qs = none) :
    ∀ q ∈ qs, ∀ p ∈ P.qn q, c.has p = false := by
  induction qs with
  | nil => simp
  | cons x qs ih =>
    unfold Emb.firstTouch at h
    split at h
    · simp at h
    · next hx =>
      intro q hq p hp
      rcases List.mem_cons.1 hq with rfl | hq
      · have := List.find?_eq_none.1 hx p hp
        simpa using this
      · exact ih h q hq p hp

/-- Two chains can be linked: they meet or a qubit of the second has one of the first among
its neighbours. -/
def Touch (P : Prob) (a b : Chain) : Prop :=
  (∃ q p, b.has q = true ∧ p ∈ P.qn q ∧ a.has p = true) ∨ ∃ q, a.has q = true ∧ b.has q = true

theorem firstTouch_spec {c : Chain} {qs : List Nat} {q p : Nat}
    (h : Emb.firstTouch P c qs = some (q, p)) : q ∈ qs ∧ p ∈ P.qn q ∧ c.has p = true := by
  induction qs with
  | nil => simp [Emb.firstTouch] at h
  | cons a qs ih =>
    unfold Emb.firstTouch at h
    split at h
    · next x hx =>
      simp only [Option.some.injEq, Prod.mk.injEq] at h
      obtain ⟨rfl, rfl⟩ := h
      exact ⟨by simp, List.mem_of_find?_eq_some hx, List.find?_some hx⟩
    · obtain ⟨h1, h2⟩ := ih h
      exact ⟨by simp [h1], h2⟩

/-- `linkup` keeps the shape, the qubits and all other links. -/
theorem Emb.Shape.linkup (wf : P.WF) (h : E.Shape P R) {u v : Nat} {t : Tape} (hu : u < P.nv)
    (hv : v ∈ P.vn u) :
    Ok (Emb.linkup P E u v t) (fun r => r.1.Shape P R ∧
      (∀ x, (r.1.chains x).parents = (E.chains x).parents) ∧
      (∀ x, (r.1.chains x).links x = (E.chains x).links x) ∧
      (∀ x y, E.L x y = true → r.1.L x y = true) ∧
      (Touch P (E.chains u) (E.chains v) → r.1.L u v = true)) := by
  have huN : u < P.N := by unfold Prob.N; omega
  have hvN := wf.vn_lt u v hu hv
  have huv : u ≠ v := by rintro rfl; exact wf.vn_irr u hu hv
  have hsym : ((E.chains u).links v).isSome = ((E.chains v).links u).isSome := by
    exact h.toEInv.L_symm huN hvN
  unfold Emb.linkup
  split
  · next hyes =>
    simp only [Bool.and_eq_true] at hyes
    exact Ok.pure ⟨h, fun _ => rfl, fun _ => rfl, fun _ _ h => h, fun _ => hyes.1⟩
  next hno =>
  have hla : (E.chains u).links v = none := by
    by_contra hc
    have := Option.isSome_iff_ne_none.2 hc
    rw [← hsym, this] at hno; simp at hno
  have hlb : (E.chains v).links u = none := by
    rw [hla] at hsym; simpa using hsym.symm
  dsimp only
  split
  · next q p hft =>
    obtain ⟨h1, h2, h3⟩ := firstTouch_spec hft
    have hq := (Chain.mem_keys.1 (permT_mem.1 h1))
    have hadj : Near P.adj p q := Or.inr (Or.inr ⟨hq.1, h2⟩)
    obtain ⟨ca, cb, s1, s2, k1, k2, k3, k4, k5, k6⟩ := h.linkPair huN hvN huv hla hlb h3 hq.2 hadj
      (fun _ => hv) (fun hvf => wf.vn_symm u v hu hvf hv)
    simp only [s1, bind, Except.bind, ne_eq, Ne.symm huv, not_false_eq_true, upd_ne, s2]
    exact Ok.pure ⟨k1, k2, k4, k6, fun _ => Emb.L_iff.2 ⟨_, k5⟩⟩
  · next hft =>
    split
    · next q hf =>
      have h3 : (E.chains v).has q = true := by simpa using List.find?_some hf
      have hq := (Chain.mem_keys.1 (permT_mem.1 (List.mem_of_find?_eq_some hf)))
      obtain ⟨ca, cb, s1, s2, k1, k2, k3, k4, k5, k6⟩ := h.linkPair huN hvN huv hla hlb hq.2 h3
        (Or.inl rfl) (fun _ => hv) (fun hvf => wf.vn_symm u v hu hvf hv)
      simp only [s1, bind, Except.bind, ne_eq, Ne.symm huv, not_false_eq_true, upd_ne, s2]
      exact Ok.pure ⟨k1, k2, k4, k6, fun _ => Emb.L_iff.2 ⟨_, k5⟩⟩
    · next hf =>
      refine Ok.pure ⟨h, fun _ => rfl, fun _ => rfl, fun _ _ h => h, ?_⟩
      rintro (⟨q, p, h1, h2, h3⟩ | ⟨q, h1, h2⟩)
      · have := firstTouch_none hft q (permT_mem.2 (Chain.mem_keys.2 ⟨(h.cinv v hvN).has_lt h1, h1⟩)) p h2
        rw [h3] at this; simp at this
      · have := List.find?_eq_none.1 hf q (permT_mem.2 (Chain.mem_keys.2 ⟨(h.cinv u huN).has_lt h1, h1⟩))
        rw [h2] at this; simp at this

/-- a chain just assigned from a vector: no links, every qubit its own parent -/
structure Discrete (nq : Nat) (c : Chain) (qs : List Nat) : Prop where
  links : ∀ x, c.links x = none
  data : ∀ i, c.data i = if i ∈ qs then some ⟨i, 1⟩ else none

theorem assignVec_spec {nq : Nat} {c : Chain} {w : Wt} {qs : List Nat} (hq : ∀ q ∈ qs, q < nq) :
    Ok (Chain.assignVec nq c w qs) (fun r => r.1.label = c.label ∧ Discrete nq r.1 qs) := by
  unfold Chain.assignVec
  dsimp only [Chain.clear]
  refine (Ok.foldlM (fun done (r : Chain × Wt) => r.1.label = c.label ∧ Discrete nq r.1 done)
    ⟨rfl, fun _ => rfl, by simp [Chain.empty]⟩ ?_)
  rintro done q ⟨c1, w1⟩ hqm _ ⟨h1, h2⟩
  dsimp only
  rw [if_pos (hq q hqm)]
  refine Ok.pure ⟨h1, h2.links, ?_⟩
  intro i
  have hd := h2.data
  dsimp only at *
  by_cases hqd : q ∈ done
  · have hhas : c1.has q = true := by simp [Chain.has, hd, hqd]
    rw [if_pos hhas, hd]
    by_cases hi : i ∈ done
    · simp [hi]
    · have : i ≠ q := by rintro rfl; exact hi hqd
      simp [hi, this]
  · have hhas : c1.has q = false := by simp [Chain.has, hd, hqd]
    rw [hhas]
    by_cases hiq : i = q
    · subst hiq; simp
    · simp [hiq, hd]

theorem Discrete.cinv {nv nq : Nat} {adj : Nat → Nat → Prop} {c : Chain} {qs : List Nat}
    (h : Discrete nq c qs) (hl : c.label < nv) (hq : ∀ q ∈ qs, q < nq) :
    CInv nv nq adj zero c ∧ (∀ i, c.has i = true ↔ i ∈ qs) ∧
      (∀ i, c.has i = true → c.parents i = some i) := by
  have dat : ∀ i e, c.data i = some e → i ∈ qs ∧ e = ⟨i, 1⟩ := by
    intro i e he
    rw [h.data] at he
    split at he
    · simp at he; exact ⟨by assumption, he.symm⟩
    · simp at he
  have hh : ∀ i, c.has i = true ↔ i ∈ qs := by
    intro i; simp only [Chain.has, h.data]; split <;> simp_all
  refine ⟨⟨hl, ?_, ?_, ?_, ?_, ?_, ?_, ?_⟩, hh, ?_⟩
  · intro q e he; exact hq q (dat q e he).1
  · intro x q hx; rw [h.links] at hx; simp at hx
  · intro x q hx; rw [h.links] at hx; simp at hx
  · intro q e he; obtain ⟨h1, rfl⟩ := dat q e he; exact (hh q).2 h1
  · intro q e he
    obtain ⟨h1, rfl⟩ := dat q e he
    have l0 : Chain.linkCnt nv c q = 0 := cnt_eq_zero.2 (fun i _ => by simp [h.links])
    have := cnt_change (p := fun _ => false) (p' := c.isPar q) (k := q) (hq q h1) (by
      intro i hi
      unfold Chain.isPar
      cases hd : c.data i with
      | none => rfl
      | some e' => obtain ⟨_, rfl⟩ := dat i e' hd; simpa using hi)
    have z : cnt (fun _ => false) nq = 0 := cnt_eq_zero.2 (fun _ _ => rfl)
    have s : c.isPar q q = true := by simp [Chain.isPar, he]
    rw [z, s] at this
    simp at this
    rw [l0, Chain.parCnt, this]; rfl
  · intro q e he; obtain ⟨h1, rfl⟩ := dat q e he; exact Or.inl rfl
  · exact ⟨fun _ => 0, fun q e he hne => by obtain ⟨h1, rfl⟩ := dat q e he; exact absurd rfl hne⟩
  · intro i hi
    obtain ⟨e, he⟩ := Chain.has_iff.1 hi
    obtain ⟨_, rfl⟩ := dat i e he
    simp [Chain.parents, he]

/-- What the caller guarantees about the initial chains: distinct free variables,
non-empty chains inside the allowed sets. -/
structure InitOK (P : Prob) (R : Nat → Nat → Prop) (init : List (Nat × List Nat)) : Prop where
  free : ∀ x ∈ init, x.1 < P.nv
  ne : ∀ x ∈ init, x.2 ≠ []
  dom : ∀ x ∈ init, ∀ q ∈ x.2, R x.1 q
  nodup : (init.map Prod.fst).Nodup

/-- State before the linking loop: `f v` lists the qubits of chain `v`. -/
structure Assigned (P : Prob) (E : Emb) (f : Nat → List Nat) : Prop where
  lab : ∀ v, v < P.N → (E.chains v).label = v
  disc : ∀ v, v < P.N → Discrete P.Q (E.chains v) (f v)

theorem Assigned.set {f : Nat → List Nat} (h : Assigned P E f) {v : Nat} {qs : List Nat}
    (hv : v < P.N) (hq : ∀ q ∈ qs, q < P.Q) :
    Ok (Emb.setChain P E v qs) (fun E' => Assigned P E' (upd f v qs)) := by
  unfold Emb.setChain
  refine Ok.bind (assignVec_spec hq) ?_
  rintro ⟨c, w⟩ ⟨h1, h2⟩
  refine Ok.pure ⟨?_, ?_⟩
  · intro x hx
    dsimp only at *
    by_cases hxv : x = v
    · subst hxv; simp; rw [h1]; exact h.lab x hx
    · simp [hxv]; exact h.lab x hx
  · intro x hx
    dsimp only at *
    by_cases hxv : x = v
    · subst hxv; simpa using h2
    · simpa [hxv] using h.disc x hx

/-- Chains assigned from the given vectors satisfy the shape invariant. -/
theorem Assigned.shape {f : Nat → List Nat} (h : Assigned P E f)
    (hlt : ∀ v q, v < P.N → q ∈ f v → q < P.Q)
    (hfree : ∀ v q, v < P.nv → q ∈ f v → R v q)
    (hfix : ∀ v, P.nv ≤ v → v < P.N → f v = P.fixedChain v) : E.Shape P R := by
  have hc := fun v (hv : v < P.N) => (h.disc v hv).cinv (nv := P.N) (adj := P.adj)
    (by rw [h.lab v hv]; exact hv) (fun q hq => hlt v q hv hq)
  refine ⟨fun v hv => (hc v hv).1, h.lab, ?_, ?_, ?_, ?_, ?_⟩
  · intro u v q hu _ _ hl; rw [(h.disc u hu).links] at hl; simp at hl
  · intro u v q hu _ _ hl; rw [(h.disc u hu).links] at hl; simp at hl
  · intro v r hv hl; rw [(h.disc v hv).links] at hl; simp at hl
  · intro v q hv hq
    exact hfree v q hv (((hc v (by unfold Prob.N; omega)).2.1 q).1 hq)
  · intro v q hv hvN
    rw [(hc v hvN).2.1 q, hfix v hv hvN]

/-- One initial chain: adoption, root link, and links to later neighbours. -/
theorem Emb.Shape.initOne (wf : P.WF) (hR : Dom P R) (h : E.Shape P R) {v : Nat} {qs : List Nat}
    {t : Tape} (hv : v < P.nv) (hne : qs ≠ [])
    (hmem : ∀ i, (E.chains v).has i = true ↔ i ∈ qs)
    (hself : ∀ i, (E.chains v).has i = true → (E.chains v).parents i = some i)
    (hlink : (E.chains v).links v = none) :
    Ok (Emb.initOne P E v qs t) (fun r => r.1.Shape P R ∧
      (∀ x, x ≠ v → (r.1.chains x).parents = (E.chains x).parents) ∧
      (∀ x, x ≠ v → (r.1.chains x).links x = (E.chains x).links x) ∧
      (∀ i, (r.1.chains v).has i = (E.chains v).has i) ∧
      (∀ x y, E.L x y = true → r.1.L x y = true) ∧
      ((∀ i ∈ qs, ∀ j ∈ qs, ReflTransGen (fun a b => b ∈ P.qn a ∧ b ∈ qs) i j) → r.1.L v v = true) ∧
      (∀ u ∈ P.vn v, v < u → Touch P (E.chains v) (E.chains u) → r.1.L v u = true)) := by
  have hvN : v < P.N := by unfold Prob.N; omega
  cases qs with
  | nil => exact absurd rfl hne
  | cons root qs =>
  unfold Emb.initOne
  have hroot : (E.chains v).has root = true := (hmem root).2 (by simp)
  obtain ⟨c1, s1, k1, k2, k3, k4⟩ := (h.cinv v hvN).setLink hvN hlink hroot
  have hhas1 := Chain.has_congr k4
  have hpar1 : ∀ i, c1.has i = true → c1.parents i = some i := by
    intro i hi; rw [k4]; rw [hhas1] at hi; exact hself i hi
  have hparinv : ∀ i j, c1.parents i = some j → i = j := by
    intro i j hij
    have : c1.has i = true := by rw [← Chain.parents_has, hij]; rfl
    rw [hpar1 i this] at hij
    simpa using hij
  have hA : AInv P.N P.Q P.adj root c1 c1 [root] := by
    refine ⟨k1, rfl, rfl, fun _ => rfl, hpar1 root (by rw [hhas1]; exact hroot), ?_, ?_⟩
    · intro x hx
      simp only [List.mem_singleton] at hx
      subst hx
      exact ⟨by rw [hhas1]; exact hroot, Or.inl rfl⟩
    · intro q _ _ i hi; exact hparinv i q hi
  have hsc : selfCnt P.Q c1 = c1.size P.Q := by
    apply cnt_congr
    intro i _
    cases hi : c1.has i with
    | true => simp [hpar1 i hi]
    | false =>
      have : c1.parents i = none := by
        rw [← Chain.parents_has] at hi; simpa using hi
      simp [this]
  refine Ok.bind (Ok.mono ⟨c1, s1, rfl⟩ (fun _ h => h)) ?_
  rintro _ rfl
  refine Ok.bind (adoptLoop_spec wf (P.Q + 1) hA (by
      simp only [List.length_singleton]; omega) (by
      have := Chain.size_le (nq := P.Q) c1; omega) (by
      intro x hx hm hs
      simp only [List.mem_singleton] at hs
      rcases hm with hm | hm
      · exact absurd hm hs
      · exact absurd (hpar1 x hx) hm)) ?_
  rintro ⟨c2, hits⟩ ⟨a1, a2, a3⟩
  dsimp only at *
  -- the root link is kept only if the chain is connected
  have hsz : c2.size P.Q = c1.size P.Q := size_congr a1.has
  have hdrop : Ok (if hits ≠ c2.size P.Q then do
        let (c, _) ← Chain.dropLink c2 v
        pure c
      else pure c2) (fun c3 => CInv P.N P.Q P.adj zero c3 ∧ c3.label = c1.label ∧
        c3.parents = c2.parents ∧ (∀ x, x ≠ v → c3.links x = c1.links x) ∧
        (∀ r, c3.links v = some r → ∀ i, c3.parents i = some i → i = r) ∧
        ((∀ i ∈ root :: qs, ∀ j ∈ root :: qs, ReflTransGen (fun a b => b ∈ P.qn a ∧ b ∈ root :: qs) i j) →
          (c3.links v).isSome = true)) := by
    have hcl : (∀ i ∈ root :: qs, ∀ j ∈ root :: qs, ReflTransGen (fun a b => b ∈ P.qn a ∧ b ∈ root :: qs) i j) →
        hits = c2.size P.Q := by
      intro hcon
      have hh2 : ∀ i, c2.has i = true ↔ i ∈ root :: qs := by
        intro i; rw [a1.has, hhas1]; exact hmem i
      have hall : ∀ i, i ∈ root :: qs → Met root c2 i := by
        intro i hi
        have hp := hcon root (by simp) i hi
        clear hi
        induction hp with
        | refl => exact Or.inl rfl
        | @tail a b hab hb ih =>
          have ha : a ∈ root :: qs := by
            rcases ReflTransGen.cases_tail hab with h' | ⟨_, _, h'⟩
            · rw [h']; simp
            · exact h'.2
          exact a3 a ((hh2 a).2 ha) ih (by simp) b hb.1 ((hh2 b).2 hb.2)
      have hone : selfCnt P.Q c2 = 1 := by
        have hr' : c2.has root = true := (hh2 root).2 (by simp)
        have h1 := cnt_change (p := fun i => c2.parents i == some i) (p' := fun _ => false) (k := root)
          (a1.cinv.has_lt hr') (by
            intro i hi
            symm
            rw [beq_eq_false_iff_ne]
            intro hc
            have hi' : c2.has i = true := by rw [← Chain.parents_has, hc]; rfl
            rcases hall i ((hh2 i).1 hi') with h' | h'
            · exact hi h'
            · exact h' hc)
        have h0 : cnt (fun _ => false) P.Q = 0 := cnt_eq_zero.2 (fun _ _ => rfl)
        rw [h0] at h1
        simp [a1.rootp, ind] at h1
        unfold selfCnt; omega
      omega
    split
    · next hh =>
      obtain ⟨c3, d1, d2, d3, d4, d5⟩ := dropLink_spec a1.cinv v
      refine ⟨c3, by simp only [d1, bind, Except.bind, pure, Except.pure], d2, d3.trans a1.lab, d5, ?_, ?_,
        fun hc => absurd (hcl hc) hh⟩
      · intro x hx; rw [d4]; simp [hx, a1.links]
      · intro r hr; rw [d4] at hr; simp at hr
    · next hh =>
      have hh : hits = c2.size P.Q := by simpa using hh
      refine Ok.pure ⟨a1.cinv, a1.lab, rfl, fun x _ => by rw [a1.links], ?_, fun _ => by rw [a1.links, k3]; simp⟩
      intro r hr i hi
      rw [a1.links, k3] at hr
      simp at hr; subst hr
      by_contra hc
      have hi' : c2.has i = true := by rw [← Chain.parents_has, hi]; rfl
      have hr' : c2.has root = true := by rw [← Chain.parents_has, a1.rootp]; rfl
      have := cnt_two (p := fun i => c2.parents i == some i) (a1.cinv.has_lt hi')
        (a1.cinv.has_lt hr') hc (by simp [hi]) (by simp [a1.rootp])
      unfold selfCnt at a2
      omega
  refine Ok.bind hdrop ?_
  rintro c3 ⟨b1, b2, b3, b4, b5, b6⟩
  -- install the chain
  have hhas3 : ∀ i, c3.has i = (E.chains v).has i := by
    intro i; rw [Chain.has_congr b3, a1.has, hhas1]
  have hshape : Emb.Shape P R { E with chains := upd E.chains v c3 } := by
    have l3 : ∀ x, x ≠ v → c3.links x = (E.chains v).links x := by
      intro x hx; rw [b4 x hx, k3]; simp [hx]
    refine ⟨?_, ?_, ?_, ?_, ?_, ?_, ?_⟩
    · intro x hx; dsimp only
      by_cases hxv : x = v
      · subst hxv; simpa using b1
      · simpa [hxv] using h.cinv x hx
    · intro x hx; dsimp only
      by_cases hxv : x = v
      · subst hxv; simp; rw [b2, k2]; exact h.lab x hx
      · simpa [hxv] using h.lab x hx
    · intro a b q ha hb hab hl
      dsimp only at *
      have e1 : ∀ x y, x ≠ y → (upd E.chains v c3 x).links y = (E.chains x).links y := by
        intro x y hxy
        by_cases hxv : x = v
        · subst hxv; simp; exact l3 y (Ne.symm hxy)
        · simp [hxv]
      rw [e1 a b hab] at hl
      rw [e1 b a (Ne.symm hab)]
      exact h.sym a b q ha hb hab hl
    · intro a b q ha hb hab hl
      dsimp only at *
      by_cases hav : a = v
      · subst hav
        simp only [upd_same] at hl
        rw [l3 b (Ne.symm hab)] at hl
        exact h.nbr a b q ha hb hab hl
      · simp only [ne_eq, hav, not_false_eq_true, upd_ne] at hl
        exact h.nbr a b q ha hb hab hl
    · intro x r hx hl
      dsimp only at *
      by_cases hxv : x = v
      · subst hxv; simp only [upd_same] at hl ⊢; exact b5 r hl
      · simp only [ne_eq, hxv, not_false_eq_true, upd_ne] at hl ⊢
        exact h.root x r hx hl
    · intro x q hx hq
      dsimp only at *
      by_cases hxv : x = v
      · subst hxv; simp only [upd_same, hhas3] at hq; exact h.dom x q hx hq
      · simp only [ne_eq, hxv, not_false_eq_true, upd_ne] at hq; exact h.dom x q hx hq
    · intro x q hx hxN
      dsimp only
      have hxv : x ≠ v := by omega
      simp only [ne_eq, hxv, not_false_eq_true, upd_ne]
      exact h.fixd x q hx hxN
  have hlink0 : ∀ x y, E.L x y = true → Emb.L { E with chains := upd E.chains v c3 } x y = true := by
    intro x y hxy
    unfold Emb.L at hxy ⊢
    dsimp only
    by_cases hxv : x = v
    · subst hxv
      have hyv : y ≠ x := by rintro rfl; rw [hlink] at hxy; simp at hxy
      simp only [upd_same]
      rw [b4 y hyv, k3]; simpa [hyv] using hxy
    · simpa [hxv] using hxy
  have htouch : ∀ {E1 : Emb} {u : Nat}, (∀ x, (E1.chains x).parents = (upd E.chains v c3 x).parents) →
      Touch P (E.chains v) (E.chains u) → Touch P (E1.chains v) (E1.chains u) := by
    intro E1 u hp ht
    have hh : ∀ x i, (E1.chains x).has i = (E.chains x).has i := by
      intro x i
      rw [Chain.has_congr (hp x)]
      by_cases hxv : x = v
      · subst hxv; simp [hhas3]
      · simp [hxv]
    unfold Touch
    simp only [hh]
    exact ht
  refine (Ok.foldlM (fun done (r : Emb × Tape) => r.1.Shape P R ∧
      (∀ x, (r.1.chains x).parents = (upd E.chains v c3 x).parents) ∧
      (∀ x, (r.1.chains x).links x = (upd E.chains v c3 x).links x) ∧
      (∀ x y, E.L x y = true → r.1.L x y = true) ∧
      (∀ u ∈ done, v < u → Touch P (E.chains v) (E.chains u) → r.1.L v u = true))
    ⟨hshape, fun _ => rfl, fun _ => rfl, hlink0, by simp⟩ ?_).mono ?_
  · rintro done u ⟨E1, t1⟩ hu _ ⟨i1, i2, i3, i4, i5⟩
    dsimp only
    split
    · refine (i1.linkup wf hv hu).mono ?_
      rintro r ⟨j1, j2, j3, j4, j5⟩
      refine ⟨j1, fun x => (j2 x).trans (i2 x), fun x => (j3 x).trans (i3 x), fun x y h => j4 x y (i4 x y h), ?_⟩
      intro y hy hvy ht
      rcases List.mem_append.1 hy with hy | hy
      · exact j4 _ _ (i5 y hy hvy ht)
      · rw [List.mem_singleton] at hy; subst hy
        exact j5 (htouch i2 ht)
    · next hvu =>
      refine Ok.pure ⟨i1, i2, i3, i4, fun y hy hvy ht => ?_⟩
      rcases List.mem_append.1 hy with hy | hy
      · exact i5 y hy hvy ht
      · rw [List.mem_singleton] at hy; subst hy; exact absurd hvy hvu
  · rintro ⟨E1, t1⟩ ⟨i1, i2, i3, i4, i5⟩
    refine ⟨i1, fun x hx => ?_, fun x hx => ?_, fun i => ?_, i4, fun hc => ?_, i5⟩
    rotate_right
    · have := b6 hc
      unfold Emb.L; dsimp only at *; rw [i3 v]; simpa using this
    · dsimp only at *; rw [i2]; simp [hx]
    · dsimp only at *; rw [i3]; simp [hx]
    · dsimp only at *; rw [Chain.has_congr (i2 v)]; simp [hhas3]

/-- The constructor of the initial embedding: no undefined behaviour, and the shape
invariant holds. -/
theorem construct_full (wf : P.WF) (hR : Dom P R) {init : List (Nat × List Nat)} {t : Tape}
    (hi : InitOK P R init) :
    Ok (Emb.construct P init t) (fun r => r.1.Shape P R ∧
      (∀ v q, v < P.nv → ((r.1.chains v).has q = true ↔ ∃ qs, (v, qs) ∈ init ∧ q ∈ qs)) ∧
      (∀ x ∈ init, (∀ i ∈ x.2, ∀ j ∈ x.2, ReflTransGen (fun a b => b ∈ P.qn a ∧ b ∈ x.2) i j) →
        r.1.L x.1 x.1 = true) ∧
      (∀ x ∈ init, ∀ u ∈ P.vn x.1, x.1 < u → Touch P (r.1.chains x.1) (r.1.chains u) → r.1.L x.1 u = true)) := by
  have lt : ∀ v, v < P.nv → v < P.N := fun v hv => by unfold Prob.N; omega
  unfold Emb.construct
  -- fixed chains
  refine Ok.bind (P := fun E => Assigned P E
      (fun v => if P.nv ≤ v ∧ v < P.N then P.fixedChain v else [])) ?_ ?_
  · refine (Ok.foldlM (fun done E => Assigned P E
      (fun v => if v ∈ done then P.fixedChain v else [])) ?_ ?_).mono ?_
    · exact ⟨fun _ _ => rfl, fun v hv => ⟨fun _ => rfl, by simp [Emb.empty, Chain.empty]⟩⟩
    · rintro done v E hv _ hA
      simp only [List.mem_map, List.mem_range] at hv
      obtain ⟨k, hk, rfl⟩ := hv
      have hN : P.nv + k < P.N := by unfold Prob.N; omega
      refine (hA.set hN (fun q hq => wf.fixed_lt _ q (by omega) hN hq)).mono ?_
      intro E' hE'
      have : upd (fun v => if v ∈ done then P.fixedChain v else []) (P.nv + k)
          (P.fixedChain (P.nv + k)) =
          (fun v => if v ∈ done ++ [P.nv + k] then P.fixedChain v else []) := by
        funext x
        by_cases hx : x = P.nv + k
        · subst hx; simp
        · simp [hx]
      rw [← this]; exact hE'
    · intro E hA
      have : (fun v => if v ∈ (List.range P.nf).map (P.nv + ·) then P.fixedChain v else []) =
          (fun v => if P.nv ≤ v ∧ v < P.N then P.fixedChain v else []) := by
        funext x
        congr 1
        simp only [List.mem_map, List.mem_range, eq_iff_iff]
        unfold Prob.N
        constructor
        · rintro ⟨k, hk, rfl⟩; omega
        · rintro ⟨h1, h2⟩; exact ⟨x - P.nv, by omega, by omega⟩
      rw [← this]; exact hA
  intro E0 hE0
  -- initial chains
  refine Ok.bind (P := fun E => ∃ f, Assigned P E f ∧
      (∀ v, P.nv ≤ v → v < P.N → f v = P.fixedChain v) ∧
      (∀ x ∈ init, f x.1 = x.2) ∧
      (∀ v, v < P.nv → v ∉ init.map Prod.fst → f v = [])) ?_ ?_
  · refine (Ok.foldlM (fun done E => ∃ f, Assigned P E f ∧
      (∀ v, P.nv ≤ v → v < P.N → f v = P.fixedChain v) ∧
      (∀ x ∈ done, f x.1 = x.2) ∧
      (∀ v, v < P.nv → v ∉ done.map Prod.fst → f v = [])) ?_ ?_)
    · refine ⟨_, hE0, ?_, by simp, ?_⟩
      · intro v h1 h2; simp [h1, h2]
      · intro v hv _
        have : ¬ P.nv ≤ v := by omega
        simp [this]
    · rintro done ⟨v, qs⟩ E hx ⟨rest, hrest⟩ ⟨f, f1, f2, f3, f4⟩
      have hv := hi.free _ hx
      dsimp only at hv ⊢
      have hfx : P.fixed v = false := by simp [Prob.fixed]; omega
      rw [hfx]
      have hvnd : v ∉ done.map Prod.fst := by
        have := hi.nodup
        rw [hrest, List.map_append, List.map_cons, List.nodup_append] at this
        intro hc
        exact this.2.2 v hc v (by simp) rfl
      refine (f1.set (lt v hv) (fun q hq => by
        have := hR.lt v q hv (hi.dom _ hx q hq)
        unfold Prob.Q; omega)).mono ?_
      intro E' hE'
      refine ⟨_, hE', ?_, ?_, ?_⟩
      · intro x h1 h2
        have : x ≠ v := by omega
        simp [this]; exact f2 x h1 h2
      · intro x hxm
        rcases List.mem_append.1 hxm with hxm | hxm
        · have : x.1 ≠ v := by
            intro hc; apply hvnd; rw [← hc]; exact List.mem_map_of_mem hxm
          simp [this]; exact f3 x hxm
        · rw [List.mem_singleton.1 hxm]; simp
      · intro x hxl hxm
        have : x ≠ v := by intro hc; apply hxm; simp [hc]
        simp only [ne_eq, this, not_false_eq_true, upd_ne]
        apply f4 x hxl
        intro hc; apply hxm; rw [List.map_append]; exact List.mem_append_left _ hc
  rintro E1 ⟨f, f1, f2, f3, f4⟩
  have hfree : ∀ v q, v < P.nv → q ∈ f v → R v q := by
    intro v q hv hq
    by_cases hm : v ∈ init.map Prod.fst
    · obtain ⟨x, hx, rfl⟩ := List.mem_map.1 hm
      rw [f3 x hx] at hq
      exact hi.dom x hx q hq
    · rw [f4 v hv hm] at hq; simp at hq
  have hlt : ∀ v q, v < P.N → q ∈ f v → q < P.Q := by
    intro v q hv hq
    by_cases hvf : v < P.nv
    · have := hR.lt v q hvf (hfree v q hvf hq); unfold Prob.Q; omega
    · rw [f2 v (by omega) hv] at hq; exact wf.fixed_lt v q (by omega) hv hq
  have hshape : E1.Shape P R := f1.shape hlt hfree f2
  have hdisc := fun v (hv : v < P.N) => (f1.disc v hv).cinv (nv := P.N) (adj := P.adj)
    (by rw [f1.lab v hv]; exact hv) (fun q hq => hlt v q hv hq)
  -- linking
  refine (Ok.foldlM (fun done (r : Emb × Tape) => r.1.Shape P R ∧
      (∀ v, v < P.N → v ∉ done.map Prod.fst → (r.1.chains v).parents = (E1.chains v).parents) ∧
      (∀ v, v < P.N → v ∉ done.map Prod.fst → (r.1.chains v).links v = none) ∧
      (∀ v i, v < P.N → (r.1.chains v).has i = (E1.chains v).has i) ∧
      (∀ x ∈ done, (∀ i ∈ x.2, ∀ j ∈ x.2, ReflTransGen (fun a b => b ∈ P.qn a ∧ b ∈ x.2) i j) →
        r.1.L x.1 x.1 = true) ∧
      (∀ x ∈ done, ∀ u ∈ P.vn x.1, x.1 < u → Touch P (E1.chains x.1) (E1.chains u) → r.1.L x.1 u = true)) ?_ ?_).mono ?_
  · exact ⟨hshape, fun _ _ _ => rfl, fun v hv _ => (f1.disc v hv).links v, fun _ _ _ => rfl, by simp, by simp⟩
  · rintro done ⟨v, qs⟩ ⟨E2, t2⟩ hx ⟨rest, hrest⟩ ⟨i1, i2, i3, i4, i5, i6⟩
    dsimp only at *
    have hv : v < P.nv := hi.free _ hx
    have hvN := lt v hv
    have hvnd : v ∉ done.map Prod.fst := by
      have := hi.nodup
      rw [hrest, List.map_append, List.map_cons, List.nodup_append] at this
      intro hc
      exact this.2.2 v hc v (by simp) rfl
    have hfv : f v = qs := f3 _ hx
    refine (i1.initOne wf hR hv (hi.ne _ hx) (qs := qs) ?_ ?_ (i3 v hvN hvnd)).mono ?_
    · intro i
      rw [i4 v i hvN, (hdisc v hvN).2.1 i, hfv]
    · intro i hii
      rw [i2 v hvN hvnd]
      apply (hdisc v hvN).2.2
      rw [← i4 v i hvN]; exact hii
    · rintro ⟨E3, t3⟩ ⟨j1, j2, j3, j4, j5, j6, j7⟩
      dsimp only at *
      refine ⟨j1, ?_, ?_, ?_, ?_, ?_⟩
      rotate_right 2
      · intro x hxm hc
        rcases List.mem_append.1 hxm with hxm | hxm
        · exact j5 _ _ (i5 x hxm hc)
        · rw [List.mem_singleton] at hxm; subst hxm; exact j6 hc
      · intro x hxm u hu hlt ht
        rcases List.mem_append.1 hxm with hxm | hxm
        · exact j5 _ _ (i6 x hxm u hu hlt ht)
        · rw [List.mem_singleton] at hxm; subst hxm
          refine j7 u hu hlt ?_
          have huN := wf.vn_lt v u hv hu
          unfold Touch at ht ⊢
          dsimp only at ht
          have e1 := fun i => i4 v i hvN
          have e2 := fun i => i4 u i huN
          simp only [e1, e2]
          exact ht
      · intro x hxN hxm
        have hxv : x ≠ v := by intro hc; apply hxm; simp [hc]
        have hxd : x ∉ done.map Prod.fst := by
          intro hc; apply hxm; rw [List.map_append]; exact List.mem_append_left _ hc
        rw [j2 x hxv]; exact i2 x hxN hxd
      · intro x hxN hxm
        have hxv : x ≠ v := by intro hc; apply hxm; simp [hc]
        have hxd : x ∉ done.map Prod.fst := by
          intro hc; apply hxm; rw [List.map_append]; exact List.mem_append_left _ hc
        rw [j3 x hxv]; exact i3 x hxN hxd
      · intro x i hxN
        by_cases hxv : x = v
        · subst hxv; rw [j4]; exact i4 x i hxN
        · rw [Chain.has_congr (j2 x hxv)]; exact i4 x i hxN
  · rintro ⟨E2, t2⟩ ⟨i1, i2, i3, i4, i5, i6⟩
    refine ⟨i1, ?_, i5, ?_⟩
    swap
    · intro x hx u hu hlt ht
      refine i6 x hx u hu hlt ?_
      have huN := wf.vn_lt x.1 u (hi.free x hx) hu
      unfold Touch at ht ⊢
      dsimp only at ht i4
      have e1 := fun i => (i4 x.1 i (lt _ (hi.free x hx))).symm
      have e2 := fun i => (i4 u i huN).symm
      simp only [e1, e2]
      exact ht
    intro v q hv
    dsimp only at *
    rw [i4 v q (lt v hv), (hdisc v (lt v hv)).2.1 q]
    constructor
    · intro hq
      by_cases hm : v ∈ init.map Prod.fst
      · obtain ⟨x, hx, rfl⟩ := List.mem_map.1 hm
        rw [f3 x hx] at hq
        exact ⟨x.2, hx, hq⟩
      · rw [f4 v hv hm] at hq; simp at hq
    · rintro ⟨qs, hx, hq⟩
      rw [f3 _ hx]; exact hq

theorem construct_shape (wf : P.WF) (hR : Dom P R) {init : List (Nat × List Nat)} {t : Tape}
    (hi : InitOK P R init) :
    Ok (Emb.construct P init t) (fun r => r.1.Shape P R ∧
      (∀ v q, v < P.nv → ((r.1.chains v).has q = true ↔ ∃ qs, (v, qs) ∈ init ∧ q ∈ qs))) :=
  (construct_full wf hR hi).mono (fun _ h => ⟨h.1, h.2.1⟩)

end MM
