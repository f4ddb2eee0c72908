import Verif.Core.EmbInit
import Verif.Core.Search

/-! The searches do what the chain construction needs: every qubit they reach has a
recorded path to the chain it was reached from. -/

namespace MM

open Chain (CInv zero Near SelfPres Tight WD WD2 PathTo)

variable {P : Prob} {R : Nat → Nat → Prop} {E : Emb}

/-- Changing parents off the path keeps the path. -/
theorem PathTo.transport {adj : Nat → Nat → Prop} {A A' T : Nat → Prop}
    {par par' : Nat → Option Nat} {n q : Nat} (h : PathTo adj A T par n q)
    (h1 : ∀ x, T x → par x = none → par' x = none)
    (h2 : ∀ x, ¬ T x → A x → par' x = par x) (h3 : ∀ x, A x → A' x) :
    PathTo adj A' T par' n q := by
  induction h with
  | base hT hn => exact .base hT (h1 _ hT hn)
  | step hnT hA hp ha _ ih => exact .step hnT (h3 _ hA) ((h2 _ hnT hA).trans hp) ha ih

/-- `q` has a recorded path to `T` through visited qubits in `A`. -/
def Reach (P : Prob) (A T : Nat → Prop) (par : Nat → Option Nat) (vis : Nat → Int) (q : Nat) :
    Prop :=
  ∃ n, PathTo P.adj (fun x => A x ∧ vis x = 1) T par n q

/-- Invariant of a search front. `B` marks qubits that were visited but cannot be used. -/
structure FrInv (P : Prob) (A T B : Nat → Prop) (vis0 : Nat → Int) (F : Front) : Prop where
  inv : F.pq.Inv
  cap : F.pq.cap = P.nq
  cnt : F.pq.count ≤ cnt (fun p => F.vis p == 1) P.nq
  nodup : (F.pq.items.map Item.node).Nodup
  item : ∀ x ∈ F.pq.items, x.node < P.nq ∧ F.vis x.node = 1 ∧ Reach P A T F.par F.vis x.node
  reach : ∀ p, p < P.nq → F.vis p = 1 → Reach P A T F.par F.vis p ∨ B p
  vis : ∀ p, F.vis p = vis0 p ∨ F.vis p = 1

/-- visited grows, parents of visited qubits stay, members of `T` keep having no parent -/
structure Grows (T : Nat → Prop) (F F' : Front) : Prop where
  vis : ∀ p, F.vis p = 1 → F'.vis p = 1
  par : ∀ p, ¬ T p → F.vis p = 1 → F'.par p = F.par p
  tpar : ∀ p, T p → F.par p = none → F'.par p = none

theorem Grows.refl (T : Nat → Prop) (F : Front) : Grows T F F :=
  ⟨fun _ h => h, fun _ _ _ => rfl, fun _ _ h => h⟩

theorem Grows.trans {T : Nat → Prop} {A B C : Front} (h1 : Grows T A B) (h2 : Grows T B C) :
    Grows T A C :=
  ⟨fun p h => h2.vis p (h1.vis p h),
   fun p hT h => (h2.par p hT (h1.vis p h)).trans (h1.par p hT h),
   fun p hT h => h2.tpar p hT (h1.tpar p hT h)⟩

theorem Reach.grows {A T : Nat → Prop} {F F' : Front} {q : Nat} (h : Reach P A T F.par F.vis q)
    (hg : Grows T F F') : Reach P A T F'.par F'.vis q := by
  obtain ⟨n, hn⟩ := h
  exact ⟨n, PathTo.transport hn hg.tpar (fun x hT hx => hg.par x hT hx.2)
    (fun x hx => ⟨hx.1, hg.vis x hx.2⟩)⟩

theorem Reach.mono {A A' T : Nat → Prop} {par : Nat → Option Nat} {vis : Nat → Int} {q : Nat}
    (h : Reach P A T par vis q) (hA : ∀ x, A x → A' x) :
    ∃ n, PathTo P.adj A' T par n q := by
  obtain ⟨n, hn⟩ := h
  exact ⟨n, PathTo.transport hn (fun _ _ h => h) (fun _ _ _ => rfl) (fun x hx => hA x hx.1)⟩

variable {A T B : Nat → Prop} {vis0 : Nat → Int} {F : Front}

/-- Marking a qubit as visited raises the number of visited qubits by one. -/
theorem cnt_vis {vis : Nat → Int} {p n : Nat} (hp : p < n) (h : vis p ≠ 1) :
    cnt (fun i => upd vis p 1 i == 1) n = cnt (fun i => vis i == 1) n + 1 ∧
      cnt (fun i => vis i == 1) n < n := by
  have h1 := cnt_change (p := fun i => vis i == 1) (p' := fun i => upd vis p 1 i == 1) (k := p) hp
    (fun i hi => by simp [hi])
  have h2 : cnt (fun i => upd vis p 1 i == 1) n ≤ n := cnt_le
  have h3 : (vis p == 1) = false := by simpa using h
  rw [h3] at h1
  simp only [upd_same, beq_self_eq_true, ind_true, ind_false] at h1
  omega

/-- Queueing and marking a qubit that has not been visited. -/
theorem FrInv.enqueue (h : FrInv P A T B vis0 F) {perm : Nat → Nat} {p : Nat} {d : D}
    {po : Option Nat} (hp : p < P.nq) (hv : F.vis p ≠ 1)
    (hg : ∀ i, ¬ T i → F.vis i = 1 → upd F.par p po i = F.par i)
    (ht : ∀ i, T i → F.par i = none → upd F.par p po i = none)
    (hr : ∃ n, PathTo P.adj (fun x => A x ∧ upd F.vis p 1 x = 1) T (upd F.par p po) n p) :
    ∃ pq, F.pq.emplace ⟨p, perm p, d⟩ = .ok pq ∧
      FrInv P A T B vis0 ⟨upd F.par p po, upd F.vis p 1, pq⟩ ∧
      Grows T F ⟨upd F.par p po, upd F.vis p 1, pq⟩ ∧
      pq.items.Perm (⟨p, perm p, d⟩ :: F.pq.items) := by
  obtain ⟨c1, c2⟩ := cnt_vis hp hv
  have hc : F.pq.count < F.pq.cap := by rw [h.cap]; have := h.cnt; omega
  obtain ⟨pq, e1, e2, e3, e4, e5⟩ := PQ.emplace_spec h.inv (x := ⟨p, perm p, d⟩) hc
  have hG : Grows T F ⟨upd F.par p po, upd F.vis p 1, pq⟩ := by
    refine ⟨?_, hg, ht⟩
    intro i hi
    dsimp only
    by_cases hip : i = p
    · subst hip; simp
    · simpa [hip] using hi
  refine ⟨pq, e1, ⟨e2, e5.trans h.cap, ?_, ?_, ?_, ?_, ?_⟩, hG, e3⟩
  · dsimp only; rw [e4, c1]; have := h.cnt; omega
  · dsimp only
    rw [(e3.map Item.node).nodup_iff]
    simp only [List.map_cons, List.nodup_cons]
    refine ⟨?_, h.nodup⟩
    intro hm
    obtain ⟨x, hx, hxp⟩ := List.mem_map.1 hm
    have := (h.item x hx).2.1
    rw [hxp] at this
    exact hv this
  · intro x hx
    dsimp only at hx
    rw [e3.mem_iff] at hx
    rcases List.mem_cons.1 hx with rfl | hx
    · exact ⟨hp, by simp, hr⟩
    · obtain ⟨a, b, c⟩ := h.item x hx
      exact ⟨a, hG.vis _ b, c.grows hG⟩
  · intro i hi hvi
    dsimp only at hvi
    by_cases hip : i = p
    · subst hip; exact Or.inl hr
    · simp only [ne_eq, hip, not_false_eq_true, upd_ne] at hvi
      rcases h.reach i hi hvi with hh | hh
      · exact Or.inl (hh.grows hG)
      · exact Or.inr hh
  · intro i
    dsimp only
    by_cases hip : i = p
    · subst hip; simp
    · simp only [ne_eq, hip, not_false_eq_true, upd_ne]; exact h.vis i

/-- Queueing a qubit next to one that was reached. -/
theorem FrInv.step (h : FrInv P A T B vis0 F) {perm : Nat → Nat} {p z : Nat} {d : D}
    (hp : p < P.nq) (hv : F.vis p = 0) (hA : A p) (hT : ¬ T p)
    (hz : Reach P A T F.par F.vis z) (hadj : P.adj p z) :
    ∃ pq, F.pq.emplace ⟨p, perm p, d⟩ = .ok pq ∧
      FrInv P A T B vis0 ⟨upd F.par p (some z), upd F.vis p 1, pq⟩ ∧
      Grows T F ⟨upd F.par p (some z), upd F.vis p 1, pq⟩ ∧
      pq.items.Perm (⟨p, perm p, d⟩ :: F.pq.items) := by
  have hg : ∀ i, ¬ T i → F.vis i = 1 → upd F.par p (some z) i = F.par i := by
    intro i _ hi
    have : i ≠ p := by rintro rfl; omega
    simp [this]
  have ht : ∀ i, T i → F.par i = none → upd F.par p (some z) i = none := by
    intro i hi hn
    have : i ≠ p := by rintro rfl; exact hT hi
    simpa [this] using hn
  refine h.enqueue hp (by omega) hg ht ?_
  obtain ⟨n, hn⟩ := hz
  refine ⟨n + 1, .step hT ⟨hA, by simp⟩ (by simp) hadj ?_⟩
  refine PathTo.transport hn ht (fun x hxT hx => hg x hxT hx.2) (fun x hx => ⟨hx.1, ?_⟩)
  by_cases hxp : x = p
  · subst hxp; simp
  · simpa [hxp] using hx.2

/-- Marking a qubit that cannot be used. -/
theorem FrInv.block {B' : Nat → Prop} (h : FrInv P A T B vis0 F) {p : Nat} (hp : p < P.nq)
    (hv : F.vis p = 0) (hB : ∀ i, i ≠ p → B i → B' i) (hB' : B' p) :
    FrInv P A T B' vis0 { F with vis := upd F.vis p 1 } ∧
      Grows T F { F with vis := upd F.vis p 1 } := by
  have hG : Grows T F { F with vis := upd F.vis p 1 } := by
    refine ⟨?_, fun _ _ _ => rfl, fun _ _ h => h⟩
    intro i hi
    dsimp only
    by_cases hip : i = p
    · subst hip; simp
    · simpa [hip] using hi
  have c1 := (cnt_vis (vis := F.vis) hp (by omega)).1
  refine ⟨⟨h.inv, h.cap, ?_, h.nodup, ?_, ?_, ?_⟩, hG⟩
  · dsimp only; rw [c1]; have := h.cnt; omega
  · intro x hx
    obtain ⟨a, b, c⟩ := h.item x hx
    exact ⟨a, hG.vis _ b, c.grows hG⟩
  · intro i hi hvi
    dsimp only at hvi
    by_cases hip : i = p
    · subst hip; exact Or.inr hB'
    · simp only [ne_eq, hip, not_false_eq_true, upd_ne] at hvi
      rcases h.reach i hi hvi with hh | hh
      · exact Or.inl (hh.grows hG)
      · exact Or.inr (hB i hip hh)
  · intro i
    dsimp only
    by_cases hip : i = p
    · subst hip; simp
    · simp only [ne_eq, hip, not_false_eq_true, upd_ne]; exact h.vis i

theorem FrInv.weaken {B' : Nat → Prop} (h : FrInv P A T B vis0 F)
    (hB : ∀ i, i < P.nq → F.vis i = 1 → B i → Reach P A T F.par F.vis i ∨ B' i) :
    FrInv P A T B' vis0 F :=
  { h with
    reach := fun p hp hv => (h.reach p hp hv).elim Or.inl (fun hb => hB p hp hv hb) }

/-- Taking the top of the queue. -/
theorem FrInv.pop (h : FrInv P A T B vis0 F) (hne : F.pq.isEmpty = false) :
    ∃ z pq, F.pq.top = .ok z ∧ F.pq.pop = .ok pq ∧
      FrInv P A T B vis0 { F with pq := pq } ∧ z.node < P.nq ∧ F.vis z.node = 1 ∧
      Reach P A T F.par F.vis z.node ∧ F.pq.items.Perm (z :: pq.items) ∧
      (∀ y ∈ F.pq.items, Item.le z y) ∧ z.node ∉ pq.items.map Item.node := by
  obtain ⟨z, pq, t1, t2, i1, i2, i3, i4, i5⟩ := PQ.pop_spec h.inv hne
  obtain ⟨a, b, c⟩ := h.item z (i2.mem_iff.2 (by simp))
  have hnd := ((i2.map Item.node).nodup_iff).1 h.nodup
  simp only [List.map_cons, List.nodup_cons] at hnd
  refine ⟨z, pq, t1, t2, ⟨i1, i5.trans h.cap, ?_, hnd.2, ?_, h.reach, h.vis⟩, a, b, c, i2, i3,
    hnd.1⟩
  · dsimp only; rw [i4]; exact h.cnt
  · intro x hx
    exact h.item x (i2.mem_iff.2 (by simp [hx]))

/-! ### seeding -/

/-- A fresh front. -/
theorem FrInv.new {par : Nat → Option Nat} (h0 : ∀ p, vis0 p ≠ 1) :
    FrInv P A T B vis0 ⟨par, vis0, PQ.new P.nq⟩ :=
  ⟨PQ.new_inv _, rfl, by simp [PQ.new], by simp [PQ.new, PQ.items, PNode.elems],
   by simp [PQ.new, PQ.items, PNode.elems], fun p _ hp => absurd hp (h0 p), fun _ => Or.inl rfl⟩

theorem seedFree_spec {perm : Nat → Nat} {qs : List Nat} (hnd : qs.Nodup)
    (hqs : ∀ q ∈ qs, q < P.nq ∧ T q) (hv : ∀ q ∈ qs, F.vis q ≠ 1)
    (h : FrInv P A T B vis0 F) :
    Ok (Front.seedFree P perm qs F) (fun F' => FrInv P A T B vis0 F' ∧ Grows T F F' ∧
      ∀ q ∈ qs, F'.vis q = 1) := by
  refine (Ok.foldlM (fun done F' => FrInv P A T B vis0 F' ∧ Grows T F F' ∧
    (∀ q ∈ done, F'.vis q = 1) ∧ (∀ q ∈ qs, q ∉ done → F'.vis q ≠ 1))
    ⟨h, Grows.refl T F, by simp, fun q hq _ => hv q hq⟩ ?_).mono ?_
  · rintro done q F1 hq ⟨rest, hrest⟩ ⟨i1, i2, i3, i4⟩
    obtain ⟨hqn, hqT⟩ := hqs q hq
    have hqd : q ∉ done := by
      rw [hrest, List.nodup_append] at hnd
      intro hc; exact hnd.2.2 q hc q (by simp) rfl
    have htp : ∀ i, T i → F1.par i = none → upd F1.par q none i = none := by
      intro i _ hi
      by_cases hiq : i = q
      · subst hiq; simp
      · simpa [hiq] using hi
    obtain ⟨pq, e1, e2, e3, _⟩ := i1.enqueue (perm := perm) (d := some 0) (po := none) hqn
      (i4 q hq hqd) (by
        intro i hT _
        have : i ≠ q := by rintro rfl; exact hT hqT
        simp [this]) htp ⟨0, .base hqT (by simp)⟩
    simp only [Front.push, if_pos hqn, e1, bind, Except.bind, Front.setVis]
    refine Ok.pure ⟨e2, i2.trans e3, ?_, ?_⟩
    · intro x hx
      dsimp only
      by_cases hxq : x = q
      · subst hxq; simp
      · simp only [List.mem_append, List.mem_singleton, hxq, or_false] at hx
        simpa [hxq] using i3 x hx
    · intro x hx hxd
      simp only [List.mem_append, List.mem_singleton, not_or] at hxd
      dsimp only
      rw [upd_ne _ _ hxd.2]
      exact i4 x hx hxd.1
  · rintro F' ⟨i1, i2, i3, _⟩; exact ⟨i1, i2, i3⟩

theorem seedFixed_spec (wf : P.WF) {perm : Nat → Nat} {use : Nat → Bool} {d : Nat → D}
    {qs : List Nat} (hqs : ∀ q ∈ qs, q < P.Q ∧ P.nq ≤ q ∧ T q) (hT : ∀ q, T q → P.nq ≤ q)
    (hA : ∀ p, p < P.nq → vis0 p = 0 → use p = true → A p) (h : FrInv P A T B vis0 F) :
    Ok (Front.seedFixed P perm use d qs F) (fun F' => FrInv P A T B vis0 F') := by
  refine Ok.foldlM' (fun F' => FrInv P A T B vis0 F') h ?_
  rintro q F1 hq i1
  obtain ⟨hqQ, hqn, hqT⟩ := hqs q hq
  have hgr : Grows T F1 { F1 with par := upd F1.par q none } := by
    refine ⟨fun _ h => h, ?_, ?_⟩
    · intro p hT _
      have : p ≠ q := by rintro rfl; exact hT hqT
      simp [this]
    · intro p _ hp
      by_cases hpq : p = q
      · subst hpq; simp
      · simpa [hpq] using hp
  have i1' : FrInv P A T B vis0 { F1 with par := upd F1.par q none } :=
    ⟨i1.inv, i1.cap, i1.cnt, i1.nodup,
      fun x hx => ⟨(i1.item x hx).1, (i1.item x hx).2.1, (i1.item x hx).2.2.grows hgr⟩,
      fun p hp hv => (i1.reach p hp hv).imp (fun h => h.grows hgr) id, i1.vis⟩
  refine (Ok.foldlM' (fun F' => FrInv P A T B vis0 F' ∧ F'.par q = none) ⟨i1', by simp⟩ ?_).mono
    (fun _ h => h.1)
  rintro p F2 hp ⟨j1, j2⟩
  have hpn := wf.qn_lt q p hqQ hp
  rw [if_pos hpn]
  split
  · exact Ok.pure ⟨j1, j2⟩
  next hv =>
  have hv : F2.vis p = 0 := by simpa using hv
  split
  · next hu =>
    have hv0 : vis0 p = 0 := by
      rcases j1.vis p with h | h
      · rw [← h]; exact hv
      · omega
    obtain ⟨pq, e1, e2, e3, _⟩ := j1.step (perm := perm) (d := d p) (z := q) hpn hv
      (hA p hpn hv0 hu) (fun hc => by have := hT p hc; omega)
      ⟨0, .base hqT j2⟩ (Or.inr ⟨hqQ, hp⟩)
    simp only [Front.push, if_pos hpn, e1, bind, Except.bind, Front.setVis]
    refine Ok.pure ⟨e2, ?_⟩
    dsimp only
    have : q ≠ p := by omega
    rw [upd_ne _ _ this]; exact j2
  · exact Ok.pure ⟨j1, j2⟩

theorem EInv.fixed_has (wf : P.WF) (h : EInv P R E) {v q : Nat} (hv : P.nv ≤ v) (hvN : v < P.N)
    (hq : (E.chains v).has q = true) : P.nq ≤ q ∧ q < P.Q := by
  have := (h.fixd v q hv hvN).1 hq
  exact ⟨wf.fixed_ge v q hv hvN this, wf.fixed_lt v q hv hvN this⟩

theorem keys_nodup (c : Chain) (nq : Nat) : (c.keys nq).Nodup := by
  unfold Chain.keys
  exact List.nodup_range.sublist List.filter_sublist

/-- The start of a search from the chain of `v`. -/
theorem init_spec (wf : P.WF) (hR : Dom P R) (hE : EInv P R E) {v : Nat} (hv : v < P.N)
    {perm : Nat → Nat} {use : Nat → Bool} {d : Nat → D} {par : Nat → Option Nat} {t : Tape}
    (h0 : ∀ p, vis0 p ≠ 1)
    (hA : ∀ p, p < P.nq → vis0 p = 0 → P.fixed v = true → use p = true → A p) :
    Ok (Front.init P E v perm use d ⟨par, vis0, PQ.new P.nq⟩ t)
      (fun r => FrInv P A (fun x => (E.chains v).has x = true) B vis0 r.1 ∧
        ∀ x, (E.chains v).has x = true → P.nq ≤ x ∨ r.1.vis x = 1) := by
  have hlt : v < P.nv + P.nr := by have := wf.nf_le; unfold Prob.N at hv; omega
  unfold Front.init
  rw [if_pos hlt]
  dsimp only
  have hmem : ∀ q, q ∈ (E.iter P v t).1 ↔ q < P.Q ∧ (E.chains v).has q = true := by
    intro q; unfold Emb.iter; rw [permT_mem, Chain.mem_keys]
  have hnew : FrInv P A (fun x => (E.chains v).has x = true) B vis0 ⟨par, vis0, PQ.new P.nq⟩ :=
    FrInv.new h0
  cases hfx : P.fixed v with
  | true =>
    have hv' : P.nv ≤ v := by simpa [Prob.fixed] using hfx
    simp only [if_true]
    refine Ok.bind (seedFixed_spec wf ?_ ?_ (fun p hp h0 hu => hA p hp h0 hfx hu) hnew) ?_
    · intro q hq
      obtain ⟨h1, h2⟩ := (hmem q).1 hq
      exact ⟨h1, (hE.fixed_has wf hv' hv h2).1, h2⟩
    · intro q hq; exact (hE.fixed_has wf hv' hv hq).1
    · intro F' hF'
      exact Ok.pure ⟨hF', fun x hx => Or.inl (hE.fixed_has wf hv' hv hx).1⟩
  | false =>
    have hv' : v < P.nv := by simpa [Prob.fixed] using hfx
    simp only [Bool.false_eq_true, if_false]
    refine Ok.bind (seedFree_spec ?_ ?_ ?_ hnew) ?_
    · exact (permT_perm _ _).nodup_iff.2 (keys_nodup _ _)
    · intro q hq
      obtain ⟨h1, h2⟩ := (hmem q).1 hq
      exact ⟨hR.lt v q hv' (hE.dom v q hv' h2), h2⟩
    · intro q _; exact h0 q
    · rintro F' ⟨h1, _, h3⟩
      exact Ok.pure ⟨h1, fun x hx => Or.inr (h3 x ((hmem x).2 ⟨(hE.cinv v hv).has_lt hx, hx⟩))⟩

/-! ### the main loop -/

theorem expand_spec (wf : P.WF) {perm : Nat → Nat} {full : Nat → Bool} {qw : Nat → D} {z : Item}
    {dist : Nat → D} (h : FrInv P A T (fun p => dist p = none) vis0 F)
    (hz : z.node < P.nq) (hzr : Reach P A T F.par F.vis z.node)
    (hT : ∀ x, T x → P.nq ≤ x ∨ F.vis x = 1)
    (hA : ∀ p, p < P.nq → vis0 p = 0 → full p = false → A p) :
    Ok (Front.expand P perm full qw z F dist) (fun r =>
      FrInv P A T (fun p => r.2 p = none) vis0 r.1 ∧ Grows T F r.1 ∧
      r.1.pq.count + cnt (fun p => F.vis p == 1) P.nq ≤
        F.pq.count + cnt (fun p => r.1.vis p == 1) P.nq ∧
      r.1.pq.items.length + F.pq.count = F.pq.items.length + r.1.pq.count) := by
  refine Ok.foldlM' (fun (r : Front × (Nat → D)) =>
      FrInv P A T (fun p => r.2 p = none) vis0 r.1 ∧ Grows T F r.1 ∧
      r.1.pq.count + cnt (fun p => F.vis p == 1) P.nq ≤
        F.pq.count + cnt (fun p => r.1.vis p == 1) P.nq ∧
      r.1.pq.items.length + F.pq.count = F.pq.items.length + r.1.pq.count)
    ⟨h, Grows.refl T F, le_refl _, rfl⟩ ?_
  rintro p ⟨F1, d1⟩ hp ⟨i1, i2, i3, i4⟩
  dsimp only at *
  have hpn := wf.qn_lt z.node p (by unfold Prob.Q; omega) hp
  rw [if_pos hpn]
  split
  · exact Ok.pure ⟨i1, i2, i3, i4⟩
  next hv =>
  have hv : F1.vis p = 0 := by simpa using hv
  have hv0 : vis0 p = 0 := by
    rcases i1.vis p with h | h
    · rw [← h]; exact hv
    · omega
  have hpT : ¬ T p := by
    intro hc
    rcases hT p hc with h | h
    · omega
    · have := i2.vis p h; omega
  have hcv := (cnt_vis (vis := F1.vis) hpn (by omega)).1
  simp only [Front.setVis, if_pos hpn, bind, Except.bind]
  cases hf : full p with
  | true =>
    simp only [if_true]
    obtain ⟨b1, b2⟩ := i1.block (B' := fun x => upd d1 p none x = none) hpn hv
      (fun i hi h => by simpa [hi] using h) (by simp)
    refine Ok.pure ⟨b1, i2.trans b2, ?_, i4⟩
    dsimp only; rw [hcv]; omega
  | false =>
    simp only [Bool.false_eq_true, if_false]
    obtain ⟨pq, e1, e2, e3, e4⟩ := i1.step (perm := perm) (d := D.add z.dist (qw p)) (z := z.node)
      hpn hv (hA p hpn hv0 hf) hpT (hzr.grows i2) (Or.inr ⟨by unfold Prob.Q; omega, hp⟩)
    simp only [Front.push, if_pos hpn, e1, bind, Except.bind]
    have hc : pq.count = F1.pq.count + 1 := by
      have hcc : F1.pq.count < F1.pq.cap := by
        by_contra hcc
        simp [PQ.emplace, hcc] at e1
      obtain ⟨pq', f1, _, _, f4, _⟩ := PQ.emplace_spec i1.inv
        (x := ⟨p, perm p, D.add z.dist (qw p)⟩) hcc
      rw [e1] at f1
      cases f1; exact f4
    have hl := e4.length_eq
    simp only [List.length_cons] at hl
    refine Ok.pure ⟨e2, i2.trans e3, ?_, ?_⟩
    · dsimp only; rw [hcv]; omega
    · dsimp only; omega

/-- The distance computation never gets stuck; every qubit it marks as visited and gives
a distance has a path. -/
theorem run_spec (wf : P.WF) {perm : Nat → Nat} {full : Nat → Bool} {qw : Nat → D} (fuel : Nat) :
    ∀ {F : Front} {dist : Nat → D}, FrInv P A T (fun p => dist p = none) vis0 F →
    (∀ x, T x → P.nq ≤ x ∨ F.vis x = 1) →
    (∀ p, p < P.nq → vis0 p = 0 → full p = false → A p) →
    P.nq + F.pq.items.length < fuel + F.pq.count →
    Ok (Front.run P perm full qw fuel F dist) (fun r =>
      FrInv P A T (fun p => r.2 p = none) vis0 r.1) := by
  induction fuel with
  | zero =>
    intro F dist h _ _ hf
    have h1 := h.cnt
    have h2 : cnt (fun p => F.vis p == 1) P.nq ≤ P.nq := cnt_le
    have h3 := h.inv.cnt
    omega
  | succ fuel ih =>
    intro F dist h hT hA hf
    unfold Front.run
    by_cases hne : F.pq.isEmpty = true
    · rw [if_pos hne]; exact Ok.pure h
    · rw [if_neg hne]
      obtain ⟨z, pq, t1, t2, i1, i2, i3, i4, i5, _, _⟩ := h.pop (by simpa using hne)
      simp only [t1, t2, bind, Except.bind]
      have hl := i5.length_eq
      simp only [List.length_cons] at hl
      have hcnt : pq.count = F.pq.count := by
        obtain ⟨x, q', s1, s2, _, _, _, s6, _⟩ := PQ.pop_spec h.inv (by simpa using hne)
        rw [t2] at s2; cases s2; exact s6
      have i1' : FrInv P A T (fun p => upd dist z.node z.dist p = none) vis0 { F with pq := pq } := by
        refine i1.weaken ?_
        intro i hi hv hb
        by_cases hiz : i = z.node
        · subst hiz; exact Or.inl i4
        · exact Or.inr (by simpa [hiz] using hb)
      obtain ⟨⟨F', d'⟩, e1, e2, e3, e4, e5⟩ := expand_spec wf (perm := perm) (full := full)
        (qw := qw) (z := z) i1' i2 i4 hT hA
      rw [e1]
      dsimp only at *
      refine ih e2 ?_ hA ?_
      · intro x hx
        rcases hT x hx with h | h
        · exact Or.inl h
        · exact Or.inr (e3.vis x h)
      · omega

/-- What a distance computation leaves behind for neighbour `v`. -/
def Searched (P : Prob) (A : Nat → Prop) (E : Emb) (S : Scratch) (v : Nat) : Prop :=
  ∀ p, p < P.nq → S.vis v p = 1 → S.dist v p ≠ none →
    ∃ n, PathTo P.adj A (fun x => (E.chains v).has x = true) (S.par v) n p

theorem prepVisited_ne (u v p : Nat) : Scratch.prepVisited P u v p ≠ 1 := by
  unfold Scratch.prepVisited; split <;> omega

/-- The arrays of the other neighbours are not touched. -/
structure OnlyAt (S S' : Scratch) (v : Nat) : Prop where
  vn : S'.vn = S.vn
  perm : S'.perm = S.perm
  par : ∀ x, x ≠ v → S'.par x = S.par x
  vis : ∀ x, x ≠ v → S'.vis x = S.vis x
  dist : ∀ x, x ≠ v → S'.dist x = S.dist x

theorem distancesFrom_spec (wf : P.WF) (hR : Dom P R) (hE : EInv P R E) {u v : Nat}
    {wb : Int} {qw : Nat → D} {S : Scratch} (hv : v < P.N)
    (hA : ∀ p, p < P.nq → (P.accepts u p = true ∨ P.accepts v p = true) →
      (P.fixed v = true ∨ E.w p < wb) → A p) :
    Ok (Scratch.distancesFrom P E wb qw u v S) (fun S' => OnlyAt S S' v ∧ Searched P A E S' v ∧
      ∀ p, S'.vis v p = Scratch.prepVisited P u v p ∨ S'.vis v p = 1) := by
  unfold Scratch.distancesFrom
  have hA' : ∀ p, p < P.nq → Scratch.prepVisited P u v p = 0 → (P.fixed v = true ∨ E.w p < wb) → A p := by
    intro p hp h0 hw
    refine hA p hp ?_ hw
    unfold Scratch.prepVisited at h0
    by_contra hc
    rw [if_neg (by simpa using hc)] at h0
    omega
  dsimp only
  refine Ok.bind (init_spec (A := A) (B := fun p => S.dist v p = none) wf hR hE hv
    (prepVisited_ne u v) (fun p hp h0 hf _ => hA' p hp h0 (Or.inl hf))) ?_
  rintro ⟨F, t⟩ ⟨i1, i2⟩
  dsimp only at *
  refine Ok.bind (run_spec wf (P.nq + 1) i1 i2 (fun p hp h0 hf =>
    hA' p hp h0 (Or.inr (by simpa using hf))) ?_) ?_
  · have := i1.inv.cnt; omega
  · rintro ⟨F', d'⟩ j1
    dsimp only at *
    refine Ok.pure ⟨⟨rfl, rfl, ?_, ?_, ?_⟩, ?_, ?_⟩
    · intro x hx; simp [hx]
    · intro x hx; simp [hx]
    · intro x hx; simp [hx]
    · intro p hp h1 h2
      simp only [upd_same] at h1 h2 ⊢
      rcases j1.reach p hp h1 with h | h
      · exact h.mono (fun _ h => h)
      · exact absurd h h2
    · intro p; simpa using j1.vis p

end MM
