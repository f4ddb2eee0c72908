import Verif.Core.FindChain

/-! `find_short_chain`. -/

namespace MM

open Chain (CInv zero Near SelfPres Tight WD WD2 PathTo)
open Scratch (Short)

variable {P : Prob} {R : Nat → Nat → Prop} {E : Emb}

theorem Ok.and {α : Type} {m : M α} {Q1 Q2 : α → Prop} (h1 : Ok m Q1) (h2 : Ok m Q2) :
    Ok m (fun a => Q1 a ∧ Q2 a) := by
  obtain ⟨a, e, ha⟩ := h1
  obtain ⟨b, e', hb⟩ := h2
  rw [e] at e'; cases e'
  exact ⟨a, e, ha, hb⟩

theorem tearOut_fr (wf : P.WF) {u : Nat} (hu : u < P.nv) {vnu : List Nat}
    (hvn : ∀ v, v ∈ vnu ↔ v ∈ P.vn u) (h : EInv P R E) :
    Ok (Emb.tearOut E vnu u) (fun E' => EInv P R E' ∧ TornOut P E E' u ∧ E'.fr = E.fr) := by
  obtain ⟨E', e, h1, h2⟩ := h.tearOut wf hu hvn
  refine ⟨E', e, h1, h2, ?_⟩
  have key : ∀ (l : List Nat) (E0 E1 : Emb), l.foldlM (init := E0) (fun E v => do
      let (o, _) ← Chain.dropLink (E.chains v) u
      Except.ok { E with chains := upd E.chains v o }) = (.ok E1 : M Emb) → E1.fr = E0.fr := by
    intro l
    induction l with
    | nil => intro E0 E1 h; cases h; rfl
    | cons v l ih =>
      intro E0 E1 h
      rw [List.foldlM_cons] at h
      cases hd : Chain.dropLink (E0.chains v) u with
      | error x => rw [hd] at h; simp [bind, Except.bind] at h
      | ok r =>
        rw [hd] at h
        have := ih { E0 with chains := upd E0.chains v r.1 } E1 h
        exact this
  unfold Emb.tearOut at e
  have := key vnu { E with chains := upd E.chains u ((E.chains u).clear E.w).1, w := ((E.chains u).clear E.w).2 } E' e
  exact this

theorem FInv.congr {E' : Emb} {u : Nat} (h : FInv P R E u) (hf : E'.fr = E.fr)
    (hp : ∀ v, v ≠ u → (E'.chains v).parents = (E.chains v).parents) : FInv P R E' u := by
  refine ⟨?_, ?_, ?_, ?_, ?_⟩
  · rw [hf]; exact h.cinv
  · rw [hf]; exact h.root
  · rw [hf]; exact h.dom
  · intro v hv
    have := h.peer v hv
    rw [hf]
    cases ho : E.fr.own v with
    | none => rw [ho] at this; exact this
    | some q =>
      rw [ho] at this
      obtain ⟨a, b, p, c, d, e⟩ := this
      exact ⟨a, b, p, c, by rw [Chain.has_congr (hp v hv)]; exact d, e⟩
  · rw [hf]; exact h.self

/-- The same pairs of variables are linked and the same chains are non-empty. -/
structure Kept (P : Prob) (E E' : Emb) : Prop where
  links : ∀ x y, x < P.N → E'.L x y = E.L x y
  ne : ∀ v, E'.NE v ↔ E.NE v

theorem Kept.same {E' E'' : Emb} (h : Kept P E E') (k : SameView E' E'') : Kept P E E'' :=
  ⟨fun x y hx => (k.links x y).trans (h.links x y hx), fun v => (k.ne v).trans (h.ne v)⟩

/-- The saved chain is the original one or one linked to all non-empty neighbours and made
of qubits in no chain. -/
def FrozenAs (P : Prob) (E0 E : Emb) (u : Nat) : Prop :=
  (E.fr.data = (E0.chains u).data ∧ E.fr.own = (E0.chains u).links) ∨
  (∀ y, (E.fr.own y).isSome = true ↔ (y = u ∨ (y ∈ P.vn u ∧ E0.NE y))) ∧
    ∀ q, (E.fr.data q).isSome = true → E.w q = 0

/-- The embedding while `u` is taken out: `E0` is the embedding before. -/
structure Out (P : Prob) (R : Nat → Nat → Prop) (E0 E : Emb) (u : Nat) : Prop where
  inv : EInv P R E
  own : E.chains u = Chain.empty u
  no : ∀ v, v < P.N → (E.chains v).links u = none
  par : ∀ v, v ≠ u → (E.chains v).parents = (E0.chains v).parents
  L : ∀ x y, x < P.N → x ≠ u → y ≠ u → E.L x y = E0.L x y
  fr : FInv P R E u
  as : FrozenAs P E0 E u

theorem Out.w_eq {E0 E1 E2 : Emb} {u : Nat} (h1 : Out P R E0 E1 u) (h2 : Out P R E0 E2 u) :
    E1.w = E2.w := by
  funext q
  rw [h1.inv.exact q, h2.inv.exact q]
  congr 1
  apply cnt_congr
  intro v _
  by_cases hv : v = u
  · subst hv; rw [h1.own, h2.own]
  · rw [Chain.has_congr (h1.par v hv), Chain.has_congr (h2.par v hv)]

theorem Out.ne {E0 E1 : Emb} {u v : Nat} (h : Out P R E0 E1 u) (hv : v ≠ u) :
    E1.NE v ↔ E0.NE v := by
  unfold Emb.NE; simp [Chain.has_congr (h.par v hv)]

theorem EInv.w_swap {A B : Emb} (hA : EInv P R A) (hB : EInv P R B) {u : Nat} (hu : u < P.N)
    (hp : ∀ v, v ≠ u → (B.chains v).parents = (A.chains v).parents) (q : Nat) :
    B.w q = A.w q - ind ((A.chains u).has q) + ind ((B.chains u).has q) := by
  rw [hA.exact q, hB.exact q]
  exact cnt_change hu (fun i hi => Chain.has_congr (hp i hi) q)

/-- What the search for a chain close by leaves unchanged: the other chains, and the fill
of every qubit that was in a chain. -/
structure Local (P : Prob) (E E' : Emb) (u : Nat) : Prop where
  size : ∀ v, v ≠ u → E'.chainsize P v = E.chainsize P v
  fill : ∀ q, E'.w q ≤ max (E.w q) 1

theorem Local.of_free {E0 E1 E' : Emb} {u : Nat} (hu : u < P.N) (h0 : EInv P R E0) (h1 : Out P R E0 E1 u)
    (h' : EInv P R E') (hp : ∀ v, v ≠ u → (E'.chains v).parents = (E0.chains v).parents)
    (hf : ∀ q, (E'.chains u).has q = true → E1.w q = 0) : Local P E0 E' u := by
  refine ⟨fun v hv => cnt_congr (fun i _ => Chain.has_congr (hp v hv) i), fun q => ?_⟩
  have a := h0.w_swap h' hu hp q
  have b := h0.w_swap h1.inv hu h1.par q
  rw [h1.own] at b
  have hz : ind ((Chain.empty u).has q) = 0 := rfl
  rw [hz] at b
  have hi : (0 : Int) ≤ ind ((E0.chains u).has q) := by unfold ind; split <;> omega
  cases hq : (E'.chains u).has q with
  | false =>
    rw [hq, show ind false = 0 from rfl] at a; omega
  | true =>
    have := hf q hq
    rw [hq, show ind true = 1 from rfl] at a; omega

/-- A qubit of fill zero is in no chain. -/
theorem EInv.free (h : EInv P R E) {q v : Nat} (hq : E.w q = 0) (hv : v < P.N) :
    (E.chains v).has q = false := by
  have h0 : cnt (fun v => (E.chains v).has q) P.N = 0 := by
    have := h.exact q; omega
  exact cnt_eq_zero.1 h0 v hv

/-- Qubits usable by the short search. -/
def SElig (P : Prob) (E : Emb) (u p : Nat) : Prop := Elig P u p ∧ E.w p = 0

/-- The front of neighbour `v` in a short search. -/
def ShortFront (P : Prob) (E : Emb) (u v : Nat) (F : Front) : Prop :=
  FrInv P (SElig P E u) (fun x => (E.chains v).has x = true) (fun p => E.w p ≠ 0)
    (Scratch.prepVisited P u v) F ∧
  ∀ x, (E.chains v).has x = true → P.nq ≤ x ∨ F.vis x = 1

/-- Qubits popped from the queue of `v`. -/
def popped (X : Short) (v q : Nat) : Bool :=
  decide (X.S.vis v q = 1) && !decide (q ∈ (X.pqs v).items.map Item.node)

/-- Invariant of the short search while no chain was accepted. -/
structure XInv (P : Prob) (R : Nat → Nat → Prop) (E0 E1 : Emb) (u : Nat) (l : List Nat)
    (X : Short) : Prop where
  out : Out P R E0 X.E u
  vn : VnOK P X.S
  vnu : X.S.vn u = l
  front : ∀ v ∈ l, ShortFront P E1 u v ⟨X.S.par v, X.S.vis v, X.pqs v⟩
  counts : ∀ q, X.counts q ≤ l.countP (fun v => popped X v q)
  czero : ∀ q, E1.w q ≠ 0 → X.counts q = 0

/-- What holds once a chain was accepted. -/
structure XFin (P : Prob) (R : Nat → Nat → Prop) (E0 : Emb) (u : Nat) (l : List Nat) (X : Short) :
    Prop where
  inv : EInv P R X.E
  vn : VnOK P X.S
  vnu : X.S.vn u = l
  built : Rebuilt P E0 X.E u
  near : Local P E0 X.E u

theorem shortExpand_spec (wf : P.WF) {E1 : Emb} {u v : Nat} {perm : Nat → Nat} {q d : Nat} {F : Front}
    (hu : u < P.nv) (hv : v ∈ P.vn u)
    (h : ShortFront P E1 u v F) (hq : q < P.nq)
    (hr : Reach P (SElig P E1 u) (fun x => (E1.chains v).has x = true) F.par F.vis q) :
    Ok (Scratch.shortExpand P perm E1.w q d F) (fun F' => ShortFront P E1 u v F' ∧
      (∀ p, F.vis p = 1 → F'.vis p = 1) ∧
      (∀ p, p ∈ F'.pq.items.map Item.node → p ∈ F.pq.items.map Item.node ∨ F.vis p ≠ 1) ∧
      F'.pq.items.length + F.pq.count = F.pq.items.length + F'.pq.count) := by
  have hqQ : q < P.Q := by unfold Prob.Q; omega
  refine (Ok.foldlM' (fun F' => ShortFront P E1 u v F' ∧
      Grows (fun x => (E1.chains v).has x = true) F F' ∧
      (∀ p, p ∈ F'.pq.items.map Item.node → p ∈ F.pq.items.map Item.node ∨ F.vis p ≠ 1) ∧
      F'.pq.items.length + F.pq.count = F.pq.items.length + F'.pq.count)
    ⟨h, Grows.refl _ _, fun _ h => Or.inl h, rfl⟩ ?_).mono
    (fun F' h => ⟨h.1, h.2.1.vis, h.2.2.1, h.2.2.2⟩)
  rintro p F1 hp ⟨⟨i1, i2⟩, i3, i4, i5⟩
  have hpn := wf.qn_lt q p hqQ hp
  rw [if_pos hpn]
  split
  · exact Ok.pure ⟨⟨i1, i2⟩, i3, i4, i5⟩
  next hvis =>
  have hvis : F1.vis p = 0 := by simpa using hvis
  have hv0 : Scratch.prepVisited P u v p = 0 := by
    rcases i1.vis p with h | h
    · rw [← h]; exact hvis
    · omega
  have hpT : ¬ (E1.chains v).has p = true := by
    intro hc
    rcases i2 p hc with h | h <;> omega
  simp only [Front.setVis, if_pos hpn, bind, Except.bind]
  split
  · next hw =>
    have hel : SElig P E1 u p := by
      refine ⟨⟨hpn, ?_⟩, hw⟩
      unfold Scratch.prepVisited at hv0
      by_contra hc
      rw [if_neg] at hv0
      · omega
      · intro hx
        apply hc
        simp only [Bool.or_eq_true] at hx
        exact hx.imp id (fun h => ⟨v, hv, h⟩)
    obtain ⟨pq, e1, e2, e3, e4⟩ := i1.step (perm := perm) (d := some d) (z := q)
      hpn hvis hel hpT (hr.grows i3) (Or.inr ⟨hqQ, hp⟩)
    simp only [Front.push, if_pos hpn, e1, bind, Except.bind]
    have hc : pq.count = F1.pq.count + 1 := by
      have hcc : F1.pq.count < F1.pq.cap := by
        by_contra hcc
        simp [PQ.emplace, hcc] at e1
      obtain ⟨pq', f1, _, _, f4, _⟩ := PQ.emplace_spec i1.inv (x := ⟨p, perm p, some d⟩) hcc
      rw [e1] at f1
      cases f1; exact f4
    have hl : pq.items.length = F1.pq.items.length + 1 := by
      have := e4.length_eq; simpa using this
    refine Ok.pure ⟨⟨e2, ?_⟩, i3.trans e3, ?_, ?_⟩
    · intro x hx
      exact (i2 x hx).imp id (fun h => e3.vis x h)
    · intro x hx
      dsimp only at hx
      rw [(e4.map Item.node).mem_iff] at hx
      rcases List.mem_cons.1 hx with h | h
      · right
        intro hc
        have := i3.vis x hc
        rw [h] at this
        dsimp only at this
        omega
      · exact i4 x h
    · dsimp only; omega
  · next hw =>
    obtain ⟨b1, b2⟩ := i1.block (B' := fun x => E1.w x ≠ 0) hpn hvis (fun _ _ h => h) hw
    refine Ok.pure ⟨⟨b1, ?_⟩, i3.trans b2, i4, i5⟩
    intro x hx
    exact (i2 x hx).imp id (fun h => b2.vis x h)

/-- After building a chain for `u` and taking it out again, `u` is out as before. -/
theorem Out.again {E0 E1 Eb E2 : Emb} {u : Nat} (hu : u < P.N) (h : Out P R E0 E1 u)
    (hb : EInv P R Eb) (hB : Built P E1 Eb u (fun v => v ∈ P.vn u ∧ E1.NE v))
    (h2 : EInv P R E2) (ht : TornOut P Eb E2 u) (hf : FInv P R E2 u)
    (ha : FrozenAs P E0 E2 u) : Out P R E0 E2 u := by
  refine ⟨h2, ht.own, ?_, ?_, ?_, hf, ha⟩
  · intro v hv
    by_cases hvu : v = u
    · subst hvu; rw [ht.own]; rfl
    · rw [ht.links v hv hvu]; simp
  · intro v hv
    rw [ht.par v hv, hB.par v hv, h.par v hv]
  · intro x y hx hxu hyu
    rw [ht.view.links x y hx, ← h.L x y hx hxu hyu]
    simp only [ne_eq, hxu, not_false_eq_true, decide_true, hyu, Bool.and_true]
    rw [Bool.eq_iff_iff, hB.view x y hx, if_neg hxu, if_neg hyu]

theorem Rebuilt.untear {E0 E1 E2 : Emb} {u : Nat} (wf : P.WF) (hu : u < P.nv)
    (h : Out P R E0 E1 u) (hr : Rebuilt P E1 E2 u) : Rebuilt P E0 E2 u := by
  constructor
  · intro x y hx
    rw [hr.links x y hx]
    by_cases hxu : x = u
    · subst hxu
      simp only [if_true]
      constructor
      · rintro (h' | ⟨h1, h2⟩)
        · exact Or.inl h'
        · have hy : y ≠ x := by rintro rfl; exact wf.vn_irr y hu h1
          exact Or.inr ⟨h1, (h.ne hy).1 h2⟩
      · rintro (h' | ⟨h1, h2⟩)
        · exact Or.inl h'
        · have hy : y ≠ x := by rintro rfl; exact wf.vn_irr y hu h1
          exact Or.inr ⟨h1, (h.ne hy).2 h2⟩
    · simp only [hxu, if_false]
      by_cases hyu : y = u
      · subst hyu
        simp only [if_true, h.ne hxu]
      · simp only [hyu, if_false]
        rw [h.L x y hx hxu hyu]
  · intro v
    rw [hr.ne v]
    by_cases hvu : v = u
    · simp [hvu]
    · simp [hvu, h.ne hvu]

theorem tryRoot_spec (wf : P.WF) (hR : Dom P R) (he : P.Even) {E0 E1 : Emb} {u q sc : Nat}
    (hu : u < P.nv) {l : List Nat} {X : Short} (hE0 : EInv P R E0) (hE1 : Out P R E0 E1 u)
    (h : XInv P R E0 E1 u l X) (hfin : X.fin = false)
    (hq : q < P.nq) (hw : E1.w q = 0) (hne : l ≠ [])
    (hvis : ∀ v ∈ l, X.S.vis v q = 1) :
    Ok (Scratch.tryRoot P u q sc X) (fun X' =>
      (X'.fin = false → XInv P R E0 E1 u l X' ∧ X'.S.vis = X.S.vis ∧ X'.S.par = X.S.par ∧
        X'.pqs = X.pqs ∧ X'.counts = X.counts) ∧
      (X'.fin = true → XFin P R E0 u l X')) := by
  have huN : u < P.N := by unfold Prob.N; omega
  have hl : l.Perm (P.vn u) := by rw [← h.vnu]; exact h.vn u hu
  have hXw : X.E.w = E1.w := h.out.w_eq hE1
  have hnotT : ∀ v, v < P.N → ¬ (E1.chains v).has q = true := by
    intro v hv; rw [hE1.inv.free hw hv]; simp
  have hTeq : ∀ v, v ≠ u → (fun x => (X.E.chains v).has x = true) =
      (fun x => (E1.chains v).has x = true) := by
    intro v hv; funext x
    rw [Chain.has_congr (h.out.par v hv), Chain.has_congr (hE1.par v hv)]
  have hreach : ∀ v ∈ l, ∀ p, p < P.nq → E1.w p = 0 → X.S.vis v p = 1 →
      ∃ n, PathTo P.adj (SElig P E1 u) (fun x => (X.E.chains v).has x = true) (X.S.par v) n p := by
    intro v hv p hp hpw hpv
    have hvP := hl.mem_iff.1 hv
    have hvu : v ≠ u := by rintro rfl; exact wf.vn_irr v hu hvP
    rw [hTeq v hvu]
    rcases (h.front v hv).1.reach p hp hpv with h' | h'
    · exact h'.mono (fun _ h => h)
    · exact absurd hpw h'
  have hqA : SElig P E1 u q := by
    obtain ⟨v, l', rfl⟩ := List.exists_cons_of_ne_nil hne
    have hvP := hl.mem_iff.1 (List.mem_cons_self (a := v) (l := l'))
    have hvu : v ≠ u := by rintro rfl; exact wf.vn_irr v hu hvP
    obtain ⟨n, hn⟩ := hreach v (by simp) q hq hw (hvis v (by simp))
    rw [hTeq v hvu] at hn
    cases hn with
    | base hT _ => exact absurd hT (hnotT v (wf.vn_lt u v hu hvP))
    | step _ hA _ _ _ => exact hA
  unfold Scratch.tryRoot
  have hperm : (X.S.vn u).Perm (P.vn u) := h.vn u hu
  refine Ok.bind (h.out.inv.constructSteiner wf hR hu hperm h.out.own h.out.no
    (A := SElig P E1 u) (fun p hp => hp.1.dom hR hu) hqA ?_ ?_) ?_
  · intro v hv _
    rw [h.vnu] at hv
    exact hreach v hv q hq hw (hvis v hv)
  · intro v hv _ p hp hv1 _
    rw [h.vnu] at hv
    refine hreach v hv p hp.1.1 hp.2 ?_
    rcases (h.front v hv).1.vis p with h' | h'
    · exfalso
      have := hp.1.vis he hu (hl.mem_iff.1 hv)
      dsimp only at h'
      rw [this] at h'
      exact hv1 h'
    · exact h'
  rintro ⟨Eb, t⟩ ⟨b1, b2, b3, b4⟩
  dsimp only at *
  have hNE : ∀ y, y ∈ P.vn u → (X.E.NE y ↔ E0.NE y) := by
    intro y hy
    exact h.out.ne (by rintro rfl; exact wf.vn_irr y hu hy)
  split
  · split
    · -- accepted
      refine Ok.pure ⟨by simp, fun _ => ⟨b1, h.vn, h.vnu,
        (b2.rebuilt huN b1 (SameView.refl Eb)).untear wf hu h.out, ?_⟩⟩
      exact Local.of_free huN hE0 hE1 b1 (fun v hv => (b2.par v hv).trans (h.out.par v hv))
        (fun q hq => (b4 q hq).2)
    · -- better but not good enough: keep it frozen
      refine Ok.bind (b1.freezeOut wf hu) ?_
      rintro ⟨E2, n⟩ ⟨f1, f2, f3, f4, f5, _⟩
      dsimp only at *
      refine Ok.pure ⟨fun _ => ⟨?_, rfl, rfl, rfl, rfl⟩, by simp [hfin]⟩
      refine ⟨?_, h.vn, h.vnu, h.front, h.counts, h.czero⟩
      have hout := Out.again (E0 := E0) huN h.out b1 b2 f1 f2 f3
      have hw2 : E2.w = X.E.w := by
        funext q
        have a := h.out.inv.w_swap b1 huN b2.par q
        have b := f2.w q
        rw [h.out.own] at a
        have hz : ind ((Chain.empty u).has q) = 0 := rfl
        rw [hz] at a; omega
      refine hout (Or.inr ⟨?_, fun q hq => ?_⟩)
      swap
      · rw [hw2, hXw]
        rw [f4] at hq
        exact (b4 q hq).2
      intro y
      rw [f5]
      have := b2.view u y huN
      rw [if_pos rfl] at this
      unfold Emb.L at this
      rw [this]
      constructor
      · rintro (h' | ⟨h1, h2⟩)
        · exact Or.inl h'
        · exact Or.inr ⟨h1, (hNE y h1).1 h2⟩
      · rintro (h' | ⟨h1, h2⟩)
        · exact Or.inl h'
        · exact Or.inr ⟨h1, (hNE y h1).2 h2⟩
  · -- not better
    refine Ok.bind (tearOut_fr wf hu (fun v => hperm.mem_iff) b1) ?_
    rintro E2 ⟨f1, f2, f3⟩
    refine Ok.pure ⟨fun _ => ⟨?_, rfl, rfl, rfl, rfl⟩, by simp [hfin]⟩
    refine ⟨?_, h.vn, h.vnu, h.front, h.counts, h.czero⟩
    have hfr : E2.fr = X.E.fr := f3.trans b3
    refine Out.again huN h.out b1 b2 f1 f2 ?_ ?_
    · refine h.out.fr.congr hfr ?_
      intro v hv
      rw [f2.par v hv, b2.par v hv]
    · have := h.out.as
      have hw2 : E2.w = X.E.w := by
        funext q
        have a := h.out.inv.w_swap b1 huN b2.par q
        have b := f2.w q
        rw [h.out.own] at a
        have hz : ind ((Chain.empty u).has q) = 0 := rfl
        rw [hz] at a; omega
      unfold FrozenAs at this ⊢
      rw [hfr, hw2]; exact this

theorem countP_le_of {l : List Nat} {p p' : Nat → Bool} {k : Nat} (hnd : l.Nodup)
    (hk : k ∈ l) (h1 : ∀ v ∈ l, p v = true → p' v = true) (h2 : p k = false) (h3 : p' k = true) :
    l.countP p + 1 ≤ l.countP p' := by
  induction l with
  | nil => simp at hk
  | cons a l ih =>
    simp only [List.nodup_cons] at hnd
    rw [List.countP_cons, List.countP_cons]
    rcases List.mem_cons.1 hk with rfl | hk'
    · have : l.countP p ≤ l.countP p' :=
        List.countP_mono_left (fun v hv => h1 v (by simp [hv]))
      simp only [h2, h3]
      simp; omega
    · have hi := ih hnd.2 hk' (fun v hv => h1 v (by simp [hv]))
      by_cases hpa : p a = true
      · simp only [hpa, h1 a (by simp) hpa, if_true]; omega
      · have : p a = false := by simpa using hpa
        simp only [this, Bool.false_eq_true, if_false]; omega

theorem countP_all {l : List Nat} {p : Nat → Bool} (h : l.length ≤ l.countP p) :
    ∀ v ∈ l, p v = true := by
  have : l.countP p = l.length := le_antisymm List.countP_le_length h
  exact List.countP_eq_length.1 this

theorem shortLoop_spec (wf : P.WF) (hR : Dom P R) (he : P.Even) {E0 E1 : Emb} {u v sc D' : Nat}
    (hu : u < P.nv) {l : List Nat} (hE0 : EInv P R E0) (hE1 : Out P R E0 E1 u) (hv : v ∈ l) (fuel : Nat) :
    ∀ {X : Short}, XInv P R E0 E1 u l X → X.fin = false →
    P.nq + (X.pqs v).items.length < fuel + (X.pqs v).count →
    Ok (Scratch.shortLoop P u v sc D' fuel X) (fun X' =>
      (X'.fin = false → XInv P R E0 E1 u l X') ∧ (X'.fin = true → XFin P R E0 u l X')) := by
  induction fuel with
  | zero =>
    intro X h _ hf
    have h1 := (h.front v hv).1.cnt
    have h2 : cnt (fun p => X.S.vis v p == 1) P.nq ≤ P.nq := cnt_le
    have h3 := (h.front v hv).1.inv.cnt
    dsimp only at *
    omega
  | succ fuel ih =>
    intro X h hfin hf
    have hl : l.Perm (P.vn u) := by rw [← h.vnu]; exact h.vn u hu
    have hnd : l.Nodup := hl.nodup_iff.2 (wf.vn_nodup u hu)
    have hvP := hl.mem_iff.1 hv
    have hfr := (h.front v hv)
    unfold Scratch.shortLoop
    by_cases hne : (X.pqs v).isEmpty = true
    · rw [if_pos hne]; exact Ok.pure ⟨fun _ => h, by simp [hfin]⟩
    rw [if_neg hne]
    obtain ⟨z, pq, t1, t2, i1, i2, i3, i4, i5, _, i6⟩ := hfr.1.pop (by simpa using hne)
    dsimp only at t1 t2 i1 i2 i3 i4 i5 i6
    refine Ok.bind ⟨z, t1, rfl⟩ ?_
    rintro _ rfl
    by_cases hd : D.lt (some D') z.dist = true
    · rw [if_pos hd]; exact Ok.pure ⟨fun _ => h, by simp [hfin]⟩
    rw [if_neg hd]
    refine Ok.bind ⟨pq, t2, rfl⟩ ?_
    rintro _ rfl
    dsimp only
    rw [if_pos i2]
    have hln := i5.length_eq
    simp only [List.length_cons] at hln
    have hcnt : pq.count = (X.pqs v).count := by
      obtain ⟨x, q', s1, s2, _, _, _, s6, _⟩ := PQ.pop_spec hfr.1.inv (by simpa using hne)
      dsimp only at s2
      rw [t2] at s2; cases s2; exact s6
    -- the state after the pop
    have hpop : ∀ x ∈ (X.pqs v).items.map Item.node, x = z.node ∨ x ∈ pq.items.map Item.node := by
      intro x hx
      rw [(i5.map Item.node).mem_iff] at hx
      exact List.mem_cons.1 hx
    have hzin : z.node ∈ (X.pqs v).items.map Item.node := by
      rw [(i5.map Item.node).mem_iff]; simp
    have hXw : X.E.w = E1.w := h.out.w_eq hE1
    let X1 : Short := { X with
      S := { X.S with dist := upd X.S.dist v (upd (X.S.dist v) z.node z.dist) }
      pqs := upd X.pqs v pq }
    let X2 : Short := if X1.E.w z.node = 0 then
      { X1 with counts := upd X1.counts z.node (X1.counts z.node + 1) } else X1
    have hpopped : ∀ x q, popped X x q = true → popped X1 x q = true := by
      intro x q hx
      simp only [popped, Bool.and_eq_true, decide_eq_true_eq, Bool.not_eq_true',
        decide_eq_false_iff_not] at hx ⊢
      refine ⟨hx.1, ?_⟩
      by_cases hxv : x = v
      · subst hxv
        simp only [X1, upd_same]
        intro hc; apply hx.2
        rw [(i5.map Item.node).mem_iff]; simp [hc]
      · simp only [X1, ne_eq, hxv, not_false_eq_true, upd_ne]; exact hx.2
    have hX1 : XInv P R E0 E1 u l X1 := by
      refine ⟨h.out, h.vn, h.vnu, ?_, ?_, h.czero⟩
      · intro x hx
        by_cases hxv : x = v
        · subst hxv
          simp only [X1, upd_same]
          exact ⟨i1, hfr.2⟩
        · simp only [X1, ne_eq, hxv, not_false_eq_true, upd_ne]
          exact h.front x hx
      · intro q
        refine le_trans (h.counts q) ?_
        exact List.countP_mono_left (fun x _ hx => hpopped x q hx)
    have hX2S : X2.S = X1.S := by simp only [X2]; split <;> rfl
    have hX2p : X2.pqs = X1.pqs := by simp only [X2]; split <;> rfl
    have hX2E : X2.E = X1.E := by simp only [X2]; split <;> rfl
    have hX2f : X2.fin = false := by simp only [X2]; split <;> exact hfin
    have hpop2 : ∀ x q, popped X2 x q = popped X1 x q := by
      intro x q; unfold popped; rw [hX2S, hX2p]
    have hX2 : XInv P R E0 E1 u l X2 := by
      refine ⟨?_, ?_, ?_, ?_, ?_, ?_⟩
      · rw [hX2E]; exact hX1.out
      · rw [hX2S]; exact hX1.vn
      · rw [hX2S]; exact hX1.vnu
      · rw [hX2S, hX2p]; exact hX1.front
      · intro q
        simp only [hpop2]
        by_cases hw : X1.E.w z.node = 0
        · have hc2 : X2.counts = upd X1.counts z.node (X1.counts z.node + 1) := by
            simp only [X2, if_pos hw]
          rw [hc2]
          by_cases hqz : q = z.node
          · subst hqz
            rw [upd_same]
            refine le_trans (Nat.add_le_add_right (h.counts z.node) 1) ?_
            refine countP_le_of hnd hv (fun x _ hx => hpopped x _ hx) ?_ ?_
            · simp only [popped, Bool.and_eq_false_iff, Bool.not_eq_false', decide_eq_true_eq]
              exact Or.inr hzin
            · simp only [popped, X1, upd_same, Bool.and_eq_true, decide_eq_true_eq,
                Bool.not_eq_true', decide_eq_false_iff_not]
              exact ⟨i3, i6⟩
          · rw [upd_ne _ _ hqz]; exact hX1.counts q
        · have hc2 : X2.counts = X1.counts := by simp only [X2, if_neg hw]
          rw [hc2]; exact hX1.counts q
      · intro q hq
        by_cases hw : X1.E.w z.node = 0
        · have hc2 : X2.counts = upd X1.counts z.node (X1.counts z.node + 1) := by
            simp only [X2, if_pos hw]
          have : q ≠ z.node := by
            rintro rfl
            apply hq
            rw [← hXw]; exact hw
          rw [hc2, upd_ne _ _ this]; exact hX1.czero q hq
        · have hc2 : X2.counts = X1.counts := by simp only [X2, if_neg hw]
          rw [hc2]; exact hX1.czero q hq
    have hlne : l ≠ [] := by rintro rfl; simp at hv
    have hlpos : 0 < l.length := List.length_pos_of_ne_nil hlne
    -- possibly try a root
    refine Ok.bind (P := fun X3 => (X3.fin = false → XInv P R E0 E1 u l X3 ∧
        X3.S.vis = X2.S.vis ∧ X3.S.par = X2.S.par ∧ X3.pqs = X2.pqs ∧ X3.counts = X2.counts) ∧
        (X3.fin = true → XFin P R E0 u l X3)) ?_ ?_
    · change Ok (if X2.counts z.node = (X2.S.vn u).length then Scratch.tryRoot P u z.node sc X2
        else Except.ok X2) _
      split
      · next hc =>
        rw [hX2.vnu] at hc
        have hw : E1.w z.node = 0 := by
          by_contra hw
          have := hX2.czero _ hw
          omega
        refine tryRoot_spec wf hR he hu hE0 hE1 hX2 hX2f i2 hw hlne ?_
        intro x hx
        have hall := countP_all (l := l) (p := fun x => popped X2 x z.node) (by
          have := hX2.counts z.node
          omega) x hx
        simp only [popped, Bool.and_eq_true, decide_eq_true_eq] at hall
        exact hall.1
      · exact Ok.pure ⟨fun _ => ⟨hX2, rfl, rfl, rfl, rfl⟩, by simp [hX2f]⟩
    rintro X3 ⟨k1, k2⟩
    by_cases hf3 : X3.fin = true
    · rw [if_pos hf3]
      exact Ok.pure ⟨by simp [hf3], k2⟩
    rw [if_neg hf3]
    have hf3' : X3.fin = false := by simpa using hf3
    obtain ⟨m1, m2, m3, m4, m5⟩ := k1 hf3'
    cases hzd : z.dist with
    | none => rw [hzd] at hd; simp [D.lt] at hd
    | some d =>
      dsimp only
      have hw3 : X3.E.w = E1.w := m1.out.w_eq hE1
      have hvis3 : X3.S.vis v = X.S.vis v := by rw [m2, hX2S]
      have hpar3 : X3.S.par v = X.S.par v := by rw [m3, hX2S]
      have hpq3 : X3.pqs v = pq := by rw [m4, hX2p]; simp [X1]
      have hid : upd (X3.S.vis v) z.node 1 = X3.S.vis v := upd_id (by rw [hvis3]; exact i3)
      rw [hid, hw3]
      have hfr3 := m1.front v hv
      refine Ok.bind (shortExpand_spec wf hu hvP hfr3 i2 (by
        rw [hvis3, hpar3]; exact i4)) ?_
      rintro F' ⟨e1, e2, e3, e4⟩
      dsimp only at e1 e2 e3 e4
      refine ih ?_ hf3' ?_
      · refine ⟨m1.out, m1.vn, m1.vnu, ?_, ?_, m1.czero⟩
        · intro x hx
          dsimp only
          by_cases hxv : x = v
          · subst hxv; simpa using e1
          · simp only [ne_eq, hxv, not_false_eq_true, upd_ne]; exact m1.front x hx
        · intro q
          refine le_trans (m1.counts q) ?_
          apply List.countP_mono_left
          intro x _ hx
          simp only [popped, Bool.and_eq_true, decide_eq_true_eq, Bool.not_eq_true',
            decide_eq_false_iff_not] at hx ⊢
          by_cases hxv : x = v
          · subst hxv
            simp only [upd_same]
            refine ⟨e2 q hx.1, ?_⟩
            intro hc
            rcases e3 q hc with h' | h'
            · exact hx.2 h'
            · exact h' hx.1
          · simp only [ne_eq, hxv, not_false_eq_true, upd_ne]; exact hx
      · dsimp only
        simp only [upd_same]
        rw [hpq3] at e4
        omega

theorem findShort_full (wf : P.WF) (hR : Dom P R) (he : P.Even) {cs u : Nat}
    (hu : u < P.nv) (hE : EInv P R E) {S : Scratch} (hS : VnOK P S)
    (hlk : ∀ v ∈ P.vn u, E.NE v → E.L u v = true) :
    Ok (Scratch.findShort P cs u E S) (fun r => VnOK P r.2 ∧ EInv P R r.1 ∧
      (Kept P E r.1 ∨ Rebuilt P E r.1 u) ∧ (∀ q, r.1.w q ≤ max (E.w q) 1) ∧
      ∀ v, v ≠ u → r.1.chainsize P v ≤ E.chainsize P v ∨ cs = 0 ∨ r.1.chainsize P v ≤ cs) := by
  have huN : u < P.N := by unfold Prob.N; omega
  unfold Scratch.findShort
  refine Ok.bind (hE.freezeOut wf hu) ?_
  rintro ⟨E1, last⟩ ⟨f1, f2, f3, f4, f5, f6⟩
  dsimp only at *
  have hno : ∀ v, v < P.N → (E1.chains v).links u = none := by
    intro v hv
    by_cases hvu : v = u
    · subst hvu; rw [f2.own]; rfl
    · rw [f2.links v hv hvu]; simp
  have hout : Out P R E E1 u := by
    refine ⟨f1, f2.own, hno, f2.par, ?_, f3, Or.inl ⟨f4, f5⟩⟩
    intro x y hx hxu hyu
    rw [f2.view.links x y hx]; simp [hxu, hyu]
  have hlp : (permT (S.vn u) S.tape).1.Perm (P.vn u) := (permT_perm _ _).trans (hS u hu)
  generalize permT (S.vn u) S.tape = r at hlp ⊢
  obtain ⟨l, t⟩ := r
  dsimp only at *
  have hnd : l.Nodup := hlp.nodup_iff.2 (wf.vn_nodup u hu)
  have hvn : ∀ x, x < P.nv → (upd S.vn u l x).Perm (P.vn x) := by
    intro x hx
    by_cases hxu : x = u
    · subst hxu; simpa using hlp
    · simpa [hxu] using hS x hx
  -- seeding
  refine Ok.bind (Ok.foldlM (fun done (r : Scratch × (Nat → PQ)) => r.1.vn = upd S.vn u l ∧
    ∀ v ∈ done, ShortFront P E1 u v ⟨r.1.par v, r.1.vis v, r.2 v⟩) ⟨rfl, by simp⟩ ?_) ?_
  · rintro done v ⟨S1, pqs⟩ hv ⟨rest, hrest⟩ ⟨i1, i2⟩
    dsimp only at *
    have hvP := hlp.mem_iff.1 hv
    have hvd : v ∉ done := by
      rw [hrest, List.nodup_append] at hnd
      intro hc; exact hnd.2.2 v hc v (by simp) rfl
    refine Ok.bind (init_spec (A := SElig P E1 u) (B := fun p => E1.w p ≠ 0) wf hR f1
      (wf.vn_lt u v hu hvP) (prepVisited_ne u v) ?_) ?_
    · intro p hp h0 _ hw
      refine ⟨⟨hp, ?_⟩, by simpa using hw⟩
      unfold Scratch.prepVisited at h0
      by_contra hc
      rw [if_neg] at h0
      · omega
      · intro hx
        apply hc
        simp only [Bool.or_eq_true] at hx
        exact hx.imp id (fun h => ⟨v, hvP, h⟩)
    · rintro ⟨F, t1⟩ ⟨j1, j2⟩
      dsimp only at *
      refine Ok.pure ⟨i1, ?_⟩
      intro x hx
      dsimp only
      rcases List.mem_append.1 hx with h | h
      · have hxv : x ≠ v := by rintro rfl; exact hvd h
        simp only [ne_eq, hxv, not_false_eq_true, upd_ne]
        exact i2 x h
      · rw [List.mem_singleton.1 h]
        simp only [upd_same]
        exact ⟨j1, j2⟩
  rintro ⟨S1, pqs⟩ ⟨i1, i2⟩
  dsimp only at *
  -- main loops
  refine Ok.bind (P := fun (X : Short) => (X.fin = false → XInv P R E E1 u l X) ∧
      (X.fin = true → XFin P R E u l X)) ?_ ?_
  · refine Ok.foldlM' (fun (X : Short) => (X.fin = false → XInv P R E E1 u l X) ∧
      (X.fin = true → XFin P R E u l X)) ⟨fun _ => ?_, by simp⟩ ?_
    · refine ⟨hout, ?_, ?_, i2, ?_, ?_⟩
      · unfold VnOK; dsimp only; rw [i1]; exact hvn
      · dsimp only; rw [i1]; simp
      · intro q; exact Nat.zero_le _
      · intro q _; rfl
    · intro D' X _ hX
      refine Ok.foldlM' (fun (X : Short) => (X.fin = false → XInv P R E E1 u l X) ∧
        (X.fin = true → XFin P R E u l X)) hX ?_
      intro v X1 hv hX1
      by_cases hf : X1.fin = true
      · rw [if_pos hf]; exact Ok.pure hX1
      rw [if_neg hf]
      have hvN := wf.vn_lt u v hu (hlp.mem_iff.1 hv)
      have hnf := wf.nf_le
      rw [if_pos (by unfold Prob.N at hvN; omega)]
      have hf' : X1.fin = false := by simpa using hf
      have hI := hX1.1 hf'
      refine shortLoop_spec wf hR he hu hE hout hv (P.nq + 1) hI hf' ?_
      have := (hI.front v hv).1.inv.cnt
      dsimp only at this
      omega
  rintro X ⟨hX1, hX2⟩
  have hVN : VnOK P X.S ∧ X.S.vn u = l := by
    cases hf : X.fin with
    | false => exact ⟨(hX1 hf).vn, (hX1 hf).vnu⟩
    | true => exact ⟨(hX2 hf).vn, (hX2 hf).vnu⟩
  -- finish
  refine Ok.bind (P := fun E2 => EInv P R E2 ∧ (Kept P E E2 ∨ Rebuilt P E E2 u) ∧
      (∀ v ∈ P.vn u, E2.NE v → E2.L u v = true) ∧ Local P E E2 u) ?_ ?_
  · cases hf : X.fin with
    | true =>
      simp only [if_true]
      have h := hX2 hf
      refine Ok.pure ⟨h.inv, Or.inr h.built, ?_, h.near⟩
      intro v hv hN
      have hvu : v ≠ u := by rintro rfl; exact wf.vn_irr v hu hv
      refine (h.built.links u v huN).2 ?_
      rw [if_pos rfl]
      refine Or.inr ⟨hv, ?_⟩
      rcases (h.built.ne v).1 hN with h' | h'
      · exact h'
      · exact absurd h' hvu
    | false =>
      simp only [Bool.false_eq_true, if_false]
      have h := (hX1 hf).out
      refine (h.inv.thawBack wf hu h.own h.no h.fr).mono ?_
      rintro E2 ⟨g1, g2⟩
      refine ⟨g1, ?_⟩
      have hNE2 : ∀ v, v ≠ u → (E2.NE v ↔ E.NE v) := by
        intro v hv
        unfold Emb.NE
        simp [Chain.has_congr (g2.par v hv), Chain.has_congr (h.par v hv)]
      have hpar : ∀ v, v ≠ u → (E2.chains v).parents = (E.chains v).parents := fun v hv =>
        (g2.par v hv).trans (h.par v hv)
      rcases h.as with ⟨a1, a2⟩ | ⟨ha, hfree⟩
      · have hsv : Kept P E E2 := by
          constructor
          · intro x y hx0
            by_cases hx : x < P.N
            · rw [g2.view x y hx]
              by_cases hxu : x = u
              · subst hxu; simp only [if_true, a2]; rfl
              · simp only [hxu, if_false]
                by_cases hyu : y = u
                · subst hyu
                  simp only [if_true, a2]
                  exact hE.L_symm huN hx
                · simp only [hyu, if_false]
                  exact h.L x y hx hxu hyu
            · exact absurd hx0 hx
          · intro v
            by_cases hvu : v = u
            · subst hvu
              unfold Emb.NE
              rw [g2.own]
              simp only [Chain.has, a1]
            · exact hNE2 v hvu
        refine ⟨Or.inl hsv, ?_, fun v hv => cnt_congr (fun i _ => Chain.has_congr (hpar v hv) i), fun q => ?_⟩
        swap
        · have a := hE.w_swap g1 huN hpar q
          have : (E2.chains u).has q = (E.chains u).has q := by
            rw [g2.own]; simp only [Chain.has, a1]
          rw [this] at a
          omega
        intro v hv hN
        rw [hsv.links u v huN]
        exact hlk v hv ((hsv.ne v).1 hN)
      · have hrb : Rebuilt P E E2 u := by
          constructor
          · intro x y hx
            rw [g2.view x y hx]
            by_cases hxu : x = u
            · subst hxu; simp only [if_true]; exact ha y
            · simp only [hxu, if_false]
              by_cases hyu : y = u
              · subst hyu; simp only [if_true]; rw [ha x]; simp [hxu]
              · simp only [hyu, if_false]; rw [h.L x y hx hxu hyu]
          · intro v
            by_cases hvu : v = u
            · subst hvu
              simp only [or_true, iff_true]
              refine g1.L_ne huN (v := v) ?_
              rw [g2.view v v huN, if_pos rfl]
              exact (ha v).2 (Or.inl rfl)
            · rw [hNE2 v hvu]; simp [hvu]
        refine ⟨Or.inr hrb, ?_, Local.of_free huN hE h g1 hpar (fun q hq => hfree q ?_)⟩
        swap
        · rw [g2.own] at hq; exact hq
        intro v hv hN
        have hvu : v ≠ u := by rintro rfl; exact wf.vn_irr v hu hv
        refine (hrb.links u v huN).2 ?_
        rw [if_pos rfl]
        exact Or.inr ⟨hv, (hNE2 v hvu).1 hN⟩
  rintro E2 ⟨g1, g2, g3, g4⟩
  rw [hVN.2]
  refine Ok.bind (g1.flipBack_full wf hR hu (cs := cs) (fun v hv => hlp.mem_iff.1 hv)
    (fun v hv => g3 v (hlp.mem_iff.1 hv))) ?_
  rintro E3 ⟨k1, k2, k3⟩
  refine Ok.pure ⟨hVN.1, k1, ?_, fun q => Int.le_trans (k3.w q) (g4.fill q), fun v hv => ?_⟩
  swap
  · dsimp only
    rw [← g4.size v hv]
    rcases k3.size v with h | h
    · exact Or.inl h
    · exact Or.inr h.2
  rcases g2 with h | h
  · exact Or.inl (h.same k2)
  · refine Or.inr ⟨?_, ?_⟩
    · intro x y hx; rw [k2.links]; exact h.links x y hx
    · intro v; rw [k2.ne]; exact h.ne v

theorem findShort_spec (wf : P.WF) (hR : Dom P R) (he : P.Even) {cs u : Nat}
    (hu : u < P.nv) (hE : EInv P R E) {S : Scratch} (hS : VnOK P S)
    (hlk : ∀ v ∈ P.vn u, E.NE v → E.L u v = true) :
    Ok (Scratch.findShort P cs u E S) (fun r => VnOK P r.2 ∧ EInv P R r.1 ∧
      (Kept P E r.1 ∨ Rebuilt P E r.1 u)) :=
  (findShort_full wf hR he hu hE hS hlk).mono (fun _ h => ⟨h.1, h.2.1, h.2.2.1⟩)

end MM
