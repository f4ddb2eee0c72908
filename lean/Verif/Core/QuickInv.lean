import Verif.Core.Quick

/-! The greedy pass keeps the invariant of the embedding. -/

namespace MM

open Scratch (Cfg)

variable {P : Prob} {R : Nat → Nat → Prop} {E : Emb}

/-- The chain of `u` is connected and linked to every neighbour that has a chain. -/
def Holds (P : Prob) (E : Emb) (u : Nat) : Prop :=
  E.L u u = true ∧ ∀ v ∈ P.vn u, E.NE v → E.L u v = true

theorem EInv.own_empty (h : EInv P R E) {u : Nat} (hu : u < P.N) (hn : ¬ E.NE u) :
    E.chains u = Chain.empty u ∧ ∀ v, v < P.N → (E.chains v).links u = none := by
  have hno : ∀ v, v < P.N → (E.chains v).links u = none := by
    intro v hv
    cases hl : (E.chains v).links u with
    | none => rfl
    | some q =>
      have : E.L u v = true := by rw [h.L_symm hu hv]; exact Emb.L_iff.2 ⟨q, hl⟩
      exact absurd (h.L_ne hu this) hn
  refine ⟨?_, hno⟩
  have h1 := h.lab u hu
  have h2 : ∀ q, (E.chains u).data q = none := by
    intro q
    cases hd : (E.chains u).data q with
    | none => rfl
    | some e => exact absurd ⟨q, Chain.has_iff.2 ⟨e, hd⟩⟩ hn
  have h3 : ∀ v, (E.chains u).links v = none := by
    intro v
    cases hl : (E.chains u).links v with
    | none => rfl
    | some q => exact absurd ⟨q, (h.cinv u hu).lin v q hl⟩ hn
  cases hc : E.chains u with
  | mk l d k =>
    rw [hc] at h1 h2 h3
    unfold Chain.empty
    dsimp only at h1 h2 h3
    rw [h1, funext h2, funext h3]

/-- What one round does to the embedding. -/
structure Swapped (P : Prob) (K : Quick) (u : Nat) (E E' : Emb) : Prop where
  ne : ∀ v, v ≠ u → (E'.NE v ↔ E.NE v)
  own : E'.NE u → Holds P E' u
  others : ∀ x, x < P.nv → x ≠ u → Holds P E x → Holds P E' x
  size : 0 < K.length → E'.chainsize P u ≤ K.length
  sizes : 0 < K.length → ∀ v, v ≠ u → E'.chainsize P v ≤ max (E.chainsize P v) K.length
  fill : 0 ≤ K.overlap → (∀ v ∈ P.vn u, P.fixed v = false) →
    ∀ q, E'.w q ≤ max (E.w q) (1 + K.overlap)

/-- The state after the search, before a chain that is too long is dropped. -/
structure Mid (P : Prob) (K : Quick) (u : Nat) (E E' : Emb) (got : Bool) : Prop where
  ne : ∀ v, v ≠ u → (E'.NE v ↔ E.NE v)
  own : E'.NE u → Holds P E' u
  others : ∀ x, x < P.nv → x ≠ u → Holds P E x → Holds P E' x
  none : got = false → ¬ E'.NE u
  sizes : 0 < K.length → ∀ v, v ≠ u → E'.chainsize P v ≤ max (E.chainsize P v) K.length
  fill : 0 ≤ K.overlap → (∀ v ∈ P.vn u, P.fixed v = false) →
    ∀ q, E'.w q ≤ max (E.w q) (1 + K.overlap)

theorem Holds.same {E' : Emb} {x : Nat} (h : Holds P E x) (hs : SameView E E') : Holds P E' x :=
  ⟨by rw [hs.links]; exact h.1, fun v hv hn => by rw [hs.links]; exact h.2 v hv ((hs.ne v).1 hn)⟩

theorem Holds.kept {E' : Emb} {x : Nat} (hx : x < P.N) (h : Holds P E x) (hs : Kept P E E') : Holds P E' x :=
  ⟨by rw [hs.links _ _ hx]; exact h.1, fun v hv hn => by
    rw [hs.links _ _ hx]; exact h.2 v hv ((hs.ne v).1 hn)⟩

theorem Holds.torn {E' : Emb} {u x : Nat} (hx : x < P.N) (hxu : x ≠ u) (h : Holds P E x) (ht : TornOut P E E' u) :
    Holds P E' x := by
  refine ⟨by rw [ht.view.links x x hx]; simp [h.1, hxu], fun v hv hn => ?_⟩
  obtain ⟨n1, n2⟩ := (ht.view.ne v).1 hn
  rw [ht.view.links x v hx]
  simp [h.2 v hv n1, hxu, n2]

theorem Holds.rebuilt (wf : P.WF) (hE : EInv P R E) {E' : Emb} {u x : Nat} (hu : u < P.nv) (hx : x < P.nv)
    (hxu : x ≠ u) (h : Holds P E x) (hr : Rebuilt P E E' u) : Holds P E' x := by
  have hp : Part P E (fun y => y = x ∧ y ≠ u) := by
    rintro y _ ⟨rfl, _⟩; exact h
  have := Part.rebuilt (S := fun y => y = x) wf hE hu hp hr x hx (Or.inl rfl)
  exact this

theorem Holds.new (wf : P.WF) {E' : Emb} {u : Nat} (hu : u < P.nv) (hr : Rebuilt P E E' u) : Holds P E' u := by
  have huN : u < P.N := by unfold Prob.N; omega
  refine ⟨(hr.links u u huN).2 (by simp), fun v hv hn => (hr.links u v huN).2 ?_⟩
  rw [if_pos rfl]
  have hvx : v ≠ u := by rintro rfl; exact wf.vn_irr v hu hv
  rcases (hr.ne v).1 hn with h' | h'
  · exact Or.inr ⟨hv, h'⟩
  · exact absurd h' hvx

theorem VnOK.mem {S : Scratch} (hS : VnOK P S) {u : Nat} (hu : u < P.nv) : ∀ v, v ∈ S.vn u ↔ v ∈ P.vn u :=
  fun _ => (hS u hu).mem_iff

theorem torn_size {E' : Emb} {u v : Nat} (ht : TornOut P E E' u) (hv : v ≠ u) :
    E'.chainsize P v = E.chainsize P v :=
  cnt_congr (fun i _ => Chain.has_congr (ht.par v hv) i)

theorem torn_w {E' : Emb} {u q : Nat} (ht : TornOut P E E' u) : E'.w q ≤ E.w q := by
  have := ht.w q
  have : (0 : Int) ≤ ind ((E.chains u).has q) := by unfold ind; split <;> omega
  omega

theorem replace_spec (wf : P.WF) (hR : Dom P R) (he : P.Even) {C : Cfg} {K : Quick} {u : Nat} (hu : u < P.nv)
    (hE : EInv P R E) {S : Scratch} (hS : VnOK P S) (hnear : K.near = true → E.NE u ∧ Holds P E u) :
    Ok (Quick.replace P C K u E S) (fun r => VnOK P r.2.1 ∧ EInv P R r.1 ∧ Mid P K u E r.1 r.2.2) := by
  have huN : u < P.N := by unfold Prob.N; omega
  have ltN : ∀ x, x < P.nv → x < P.N := fun x hx => by unfold Prob.N; omega
  unfold Quick.replace
  refine Ok.bind (P := fun E1 => EInv P R E1 ∧ SameView E E1 ∧ Eased P E E1 0 (fun v => v = u)) ?_ ?_
  · split
    · exact hE.stealAll_full wf hR hu (fun v hv => (hS.mem hu v).1 hv)
    · exact Ok.pure ⟨hE, SameView.refl E, Eased.refl E _ _⟩
  rintro E1 ⟨a1, a2, a3⟩
  have hsz1 : ∀ v, v ≠ u → E1.chainsize P v ≤ E.chainsize P v := by
    intro v hv
    rcases a3.size v with h | h
    · exact h
    · exact absurd h.1 hv
  split
  · next hls =>
    have hk : K.near = true := by
      unfold Quick.nearby at hls
      simp only [Bool.and_eq_true] at hls; exact hls.1
    obtain ⟨n1, n2⟩ := hnear hk
    have h1 := n2.same a2
    refine Ok.bind (findShort_full wf hR he hu a1 hS h1.2) ?_
    rintro ⟨E2, S2⟩ ⟨b1, b2, b3, b4, b5⟩
    dsimp only at *
    refine Ok.pure ⟨b1, b2, ?_⟩
    have hs : 0 < K.length → ∀ v, v ≠ u → E2.chainsize P v ≤ max (E.chainsize P v) K.length := by
      intro hl v hv
      have := b5 v hv
      have := hsz1 v hv
      omega
    have hf : 0 ≤ K.overlap → (∀ v ∈ P.vn u, P.fixed v = false) →
        ∀ q, E2.w q ≤ max (E.w q) (1 + K.overlap) := by
      intro ho _ q
      have := b4 q
      have := a3.w q
      omega
    rcases b3 with b3 | b3
    · exact ⟨fun v _ => (b3.ne v).trans (a2.ne v), fun _ => h1.kept huN b3,
        fun x hx _ h => (h.same a2).kept (ltN x hx) b3, by simp, hs, hf⟩
    · refine ⟨fun v hv => ?_, fun _ => Holds.new wf hu b3,
        fun x hx hxu h => (h.same a2).rebuilt wf a1 hu hx hxu b3, by simp, hs, hf⟩
      dsimp only
      rw [b3.ne v, a2.ne v]; simp [hv]
  · refine Ok.bind (P := fun E2 => EInv P R E2 ∧ ¬ E2.NE u ∧ (∀ v, v ≠ u → (E2.NE v ↔ E.NE v)) ∧
      (∀ x, x < P.nv → x ≠ u → Holds P E x → Holds P E2 x) ∧
      (∀ v, v ≠ u → E2.chainsize P v ≤ E.chainsize P v) ∧ ∀ q, E2.w q ≤ E.w q) ?_ ?_
    · split
      · refine (a1.tearOut wf hu (hS.mem hu)).mono ?_
        rintro E2 ⟨b1, b2⟩
        refine ⟨b1, fun hc => ((b2.view.ne u).1 hc).2 rfl, fun v hv => ?_,
          fun x hx hxu h => (h.same a2).torn (ltN x hx) hxu b2, fun v hv => ?_, fun q => ?_⟩
        · rw [b2.view.ne v, a2.ne v]; simp [hv]
        · rw [torn_size b2 hv]; exact hsz1 v hv
        · exact Int.le_trans (torn_w b2) (a3.w q)
      · next h0 =>
        refine Ok.pure ⟨a1, fun hc => ?_, fun v _ => a2.ne v, fun x _ _ h => h.same a2, hsz1, a3.w⟩
        exact h0 ((a1.size_iff huN).2 hc)
    · rintro E2 ⟨b1, b2, b3, b4, b5, b6⟩
      obtain ⟨o1, o2⟩ := b1.own_empty huN b2
      refine (findChain_full wf hR he hu b1 o1 o2 hS).mono ?_
      rintro ⟨E3, S3, got⟩ ⟨c1, c2, c3, c4, c5⟩
      dsimp only at *
      have hs : 0 < K.length → ∀ v, v ≠ u →
          E3.chainsize P v ≤ max (E.chainsize P v) K.length := by
        intro hl v hv
        have := c5 v hv
        have := b5 v hv
        omega
      have hf : 0 ≤ K.overlap → (∀ v ∈ P.vn u, P.fixed v = false) →
          ∀ q, E3.w q ≤ max (E.w q) (1 + K.overlap) := by
        intro _ hfr q
        have := c4 hfr q
        have := b6 q
        omega
      cases got with
      | false =>
        obtain rfl := c2 rfl
        exact ⟨c1, b1, b3, fun h => absurd h b2, b4, fun _ => b2, hs, hf⟩
      | true =>
        obtain ⟨d1, d2⟩ := c3 rfl
        refine ⟨c1, d1, fun v hv => ?_, fun _ => Holds.new wf hu d2,
          fun x hx hxu h => (b4 x hx hxu h).rebuilt wf b1 hu hx hxu d2, by simp, hs, hf⟩
        rw [d2.ne v, b3 v hv]; simp [hv]

theorem step_spec (wf : P.WF) (hR : Dom P R) (he : P.Even) {C : Cfg} {K : Quick} {u : Nat} (hu : u < P.nv)
    (hE : EInv P R E) {S : Scratch} (hS : VnOK P S) (hnear : K.near = true → E.NE u ∧ Holds P E u) :
    Ok (Quick.step P C K u E S) (fun r => VnOK P r.2 ∧ EInv P R r.1 ∧ Swapped P K u E r.1) := by
  have huN : u < P.N := by unfold Prob.N; omega
  have ltN : ∀ x, x < P.nv → x < P.N := fun x hx => by unfold Prob.N; omega
  unfold Quick.step
  refine Ok.bind (replace_spec wf hR he hu hE hS hnear) ?_
  rintro ⟨E1, S1, got⟩ ⟨a1, a2, a3⟩
  dsimp only at *
  split
  · refine Ok.bind (a2.stealAll_full wf hR hu (fun v hv => (a1.mem hu v).1 hv)) ?_
    rintro E2 ⟨b1, b2, b3⟩
    refine Ok.bind (b1.tearOut wf hu (a1.mem hu)) ?_
    rintro E3 ⟨c1, c2⟩
    have hout : ¬ E3.NE u := fun hc => ((c2.view.ne u).1 hc).2 rfl
    have hsz : ∀ v, v ≠ u → E3.chainsize P v ≤ E1.chainsize P v := by
      intro v hv
      rw [torn_size c2 hv]
      rcases b3.size v with h | h
      · exact h
      · exact absurd h.1 hv
    refine Ok.pure ⟨a1, c1, ?_, fun h => absurd h hout, ?_, ?_, ?_, ?_⟩
    · intro v hv
      dsimp only
      rw [c2.view.ne v, b2.ne v, a3.ne v hv]; simp [hv]
    · intro x hx hxu h
      exact ((a3.others x hx hxu h).same b2).torn (ltN x hx) hxu c2
    · intro _
      have : E3.chainsize P u = 0 := by
        by_contra hc; exact hout ((c1.size_iff huN).1 hc)
      dsimp only; omega
    · intro h2 v hv
      have := a3.sizes h2 v hv
      have := hsz v hv
      dsimp only; omega
    · intro h1 h2 q
      have := a3.fill h1 h2 q
      have := b3.w q
      have := torn_w (q := q) c2
      dsimp only; omega
  · next hc =>
    refine Ok.pure ⟨a1, a2, a3.ne, a3.own, a3.others, ?_, a3.sizes, a3.fill⟩
    intro h0
    dsimp only
    cases got with
    | false =>
      have : E1.chainsize P u = 0 := by
        by_contra hcc; exact a3.none rfl ((a2.size_iff huN).1 hcc)
      omega
    | true =>
      by_contra hcc
      exact hc ⟨rfl, h0, by omega⟩

/-- What a pass over `order` does. -/
structure Passed (P : Prob) (K : Quick) (order : List Nat) (E E' : Emb) : Prop where
  /-- nodes that are not listed keep a chain or stay without one -/
  ne : ∀ v, v ∉ order → (E'.NE v ↔ E.NE v)
  /-- a listed node with a chain is connected and linked to all neighbours with chains -/
  own : ∀ u, u ∈ order → E'.NE u → Holds P E' u
  others : ∀ x, x < P.nv → x ∉ order → Holds P E x → Holds P E' x
  size : 0 < K.length → ∀ u, u ∈ order → E'.chainsize P u ≤ K.length
  sizes : 0 < K.length → ∀ v, v ∉ order → E'.chainsize P v ≤ max (E.chainsize P v) K.length
  fill : 0 ≤ K.overlap → (∀ u ∈ order, ∀ v ∈ P.vn u, P.fixed v = false) →
    ∀ q, E'.w q ≤ max (E.w q) (1 + K.overlap)

theorem loop_spec (wf : P.WF) (hR : Dom P R) (he : P.Even) {C : Cfg} {K : Quick} :
    ∀ {order : List Nat} {E : Emb} {S : Scratch}, (∀ u ∈ order, u < P.nv) → EInv P R E → VnOK P S →
    (K.near = true → order.Nodup ∧ ∀ u ∈ order, E.NE u ∧ Holds P E u) →
    Ok (Quick.loop P C K order E S) (fun r => VnOK P r.2 ∧ EInv P R r.1 ∧ Passed P K order E r.1) := by
  intro order
  induction order with
  | nil =>
    intro E S _ hE hS _
    exact Ok.pure ⟨hS, hE, fun _ _ => Iff.rfl, by simp, fun _ _ _ h => h, by simp,
      fun _ v _ => by dsimp only; omega, fun _ _ q => by dsimp only; omega⟩
  | cons u us ih =>
    intro E S hord hE hS hnear
    have hu := hord u (by simp)
    unfold Quick.loop
    refine Ok.bind (step_spec wf hR he hu hE hS (fun h => (hnear h).2 u (by simp))) ?_
    rintro ⟨E1, S1⟩ ⟨a1, a2, a3⟩
    dsimp only at *
    refine (ih (E := E1) (fun x hx => hord x (by simp [hx])) a2 a1 ?_).mono ?_
    · intro hk
      obtain ⟨h1, h2⟩ := hnear hk
      obtain ⟨h3, h4⟩ := List.nodup_cons.1 h1
      refine ⟨h4, fun x hx => ?_⟩
      have hxu : x ≠ u := by rintro rfl; exact h3 hx
      obtain ⟨h5, h6⟩ := h2 x (by simp [hx])
      exact ⟨(a3.ne x hxu).2 h5, a3.others x (hord x (by simp [hx])) hxu h6⟩
    · rintro ⟨E2, S2⟩ ⟨b1, b2, b3⟩
      dsimp only at *
      refine ⟨b1, b2, ?_, ?_, ?_, ?_, ?_, ?_⟩
      · intro v hv
        simp only [List.mem_cons, not_or] at hv
        rw [b3.ne v hv.2, a3.ne v hv.1]
      · intro x hx hn
        by_cases hxs : x ∈ us
        · exact b3.own x hxs hn
        · have hxu : x = u := by
            rcases List.mem_cons.1 hx with h | h
            · exact h
            · exact absurd h hxs
          subst hxu
          exact b3.others x hu hxs (a3.own ((b3.ne x hxs).1 hn))
      · intro x hx hxo h
        simp only [List.mem_cons, not_or] at hxo
        exact b3.others x hx hxo.2 (a3.others x hx hxo.1 h)
      · intro h2 x hx
        by_cases hxs : x ∈ us
        · exact b3.size h2 x hxs
        · have hxu : x = u := by
            rcases List.mem_cons.1 hx with h | h
            · exact h
            · exact absurd h hxs
          subst hxu
          have := b3.sizes h2 x hxs
          have := a3.size h2
          omega
      · intro h2 v hv
        simp only [List.mem_cons, not_or] at hv
        have := b3.sizes h2 v hv.2
        have := a3.sizes h2 v hv.1
        omega
      · intro h1 h2 q
        have := b3.fill h1 (fun x hx => h2 x (by simp [hx])) q
        have := a3.fill h1 (h2 u (by simp)) q
        omega

theorem pass_spec (wf : P.WF) (hR : Dom P R) (he : P.Even) {C : Cfg} {K : Quick} {order : List Nat} {X : Run}
    (hord : ∀ u ∈ order, u < P.nv) (hK : K.clear = true) (hb : Base P X.best) (hi : X.init.Shape P R) (hS : VnOK P X.S)
    (hnear : K.near = true → order.Nodup ∧ ∀ u ∈ order, X.init.NE u ∧ Holds P X.init u) :
    Ok (Quick.pass P C K order X) (fun Y => VnOK P Y.S ∧ EInv P R Y.best ∧ Y.init = X.init ∧
      ∃ E, EInv P R E ∧ (∀ v, v < P.N → E.chains v = X.init.chains v) ∧ Passed P K order E Y.best) := by
  unfold Quick.pass
  rw [if_pos hK]
  obtain ⟨c1, c2⟩ := EInv.copy (R := R) hb.1 hb.2 hi
  refine Ok.bind (loop_spec wf hR he hord c1 hS ?_) ?_
  · intro hk
    obtain ⟨h1, h2⟩ := hnear hk
    refine ⟨h1, fun u hu => ?_⟩
    have huN : u < P.N := by have := hord u hu; unfold Prob.N; omega
    obtain ⟨h3, h4⟩ := h2 u hu
    refine ⟨by unfold Emb.NE; rw [c2 u huN]; exact h3, by unfold Emb.L; rw [c2 u huN]; exact h4.1, ?_⟩
    intro v hv hn
    have hvN := wf.vn_lt u v (hord u hu) hv
    unfold Emb.NE at hn
    rw [c2 v hvN] at hn
    unfold Emb.L
    rw [c2 u huN]; exact h4.2 v hv hn
  · rintro ⟨E, S⟩ ⟨a1, a2, a3⟩
    exact Ok.pure ⟨a1, a2, rfl, _, c1, c2, a3⟩

end MM
