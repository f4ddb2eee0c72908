import Verif.Graph.ProcInv
import Verif.Spec.Minor

/-! What `findEmbedding` returns. -/

namespace MM

open Relation
open Scratch (Cfg)

variable {P : Prob} {R : Nat → Nat → Prop} {E : Emb} {I : Input} {p : Proc} {l0 : List Nat}

/-! ### the initial state -/

theorem Run.new_spec (wf : P.WF) (hR : Dom P R) {init : List (Nat × List Nat)} (hi : InitOK P R init)
    (t : Tape) : Ok (Run.new P init t) (RI0 P R) := by
  unfold Run.new
  refine Ok.bind (construct_shape wf hR hi) ?_
  rintro ⟨E, t⟩ ⟨hE, _⟩
  dsimp only
  have hb : Base P Emb.empty := ⟨empty_exact, fun _ _ => rfl⟩
  refine Ok.pure ⟨fun _ _ => List.Perm.refl _, hE, hb, hb, hb, ?_⟩
  intro u hu
  simp only [List.mem_replicate] at hu
  omega

/-! ### domains -/

/-- Without restrictions every free qubit may be used. -/
theorem dom_free (P : Prob) : Dom P (fun _ q => q < P.nq) :=
  ⟨fun _ _ _ h => h, fun _ _ _ _ _ _ h _ => h, fun _ _ _ h _ => h, fun _ _ _ _ _ h _ => h⟩

theorem even_free (h : ∀ v q, v < P.nv → q < P.nq → P.accepts v q = true) : P.Even :=
  fun u _ _ q hu _ _ hq _ => Or.inl (h u q hu hq)

/-! ### chains of the caller -/

theorem from_spec {C : Comps} {c : Nat} {comp l : List Nat} (hc : C.comp[c]? = some comp)
    (hl : ∀ x ∈ l, x < comp.length) :
    Ok (C.from_ c l) (fun out => out.length = l.length ∧
      ∀ (i x : Nat), l[i]? = some x → out[i]? = comp[x]?) := by
  unfold Comps.from_
  rw [hc]
  refine Ok.foldlM (I := fun done (out : List Nat) => out.length = done.length ∧
    ∀ (i x : Nat), done[i]? = some x → out[i]? = comp[x]?) ?_ ?_
  · simp
  · intro done x out hx _ ⟨h1, h2⟩
    rw [List.getElem?_eq_getElem (hl x hx)]
    refine Ok.pure ⟨by simp [h1], ?_⟩
    intro i y hi
    rw [List.getElem?_append] at hi ⊢
    rw [h1]
    split at hi
    · next h => rw [if_pos h]; exact h2 i y hi
    · next h =>
      rw [if_neg h]
      have : i - done.length = 0 := by
        by_contra hc
        rw [List.getElem?_eq_none (by simp; omega)] at hi
        simp at hi
      rw [this] at hi ⊢
      simp at hi
      subst hi
      rw [List.getElem?_eq_getElem (hl x hx)]; rfl

theorem Proc.Rep.get_inj (h : p.Rep I l0) {i j x : Nat} (hi : l0[i]? = some x) (hj : l0[j]? = some x) : i = j := by
  have a := (h.place i x hi).2.2
  have b := (h.place j x hj).2.2
  omega

/-- The chain handed to the caller lists the nodes of the internal chain. -/
def Handed (p : Proc) (l0 : List Nat) (E : Emb) (u : Nat) (c : List Nat) : Prop :=
  c.Nodup ∧ ∀ q, q ∈ c ↔ ∃ j, l0[j]? = some q ∧ (E.chains (p.screw u)).has j = true

theorem Proc.Rep.getChain (h : p.Rep I l0) (E : Emb) (u : Nat) (t : Tape) :
    Ok (p.getChain E u t) (fun r => Handed p l0 E u r.1) := by
  unfold Proc.getChain
  have hperm := permT_perm ((E.chains (p.screw u)).keys p.P.Q) t
  unfold Emb.iter
  generalize permT ((E.chains (p.screw u)).keys p.P.Q) t = r at hperm ⊢
  obtain ⟨l, t'⟩ := r
  dsimp only at *
  have hmem : ∀ x, x ∈ l ↔ x < p.P.Q ∧ (E.chains (p.screw u)).has x = true := by
    intro x
    rw [hperm.mem_iff]
    unfold Chain.keys
    simp
  have hnd : l.Nodup := hperm.nodup_iff.2 (List.nodup_range.sublist List.filter_sublist)
  refine Ok.bind (from_spec h.comp0 (l := l) ?_) ?_
  · intro x hx; rw [← h.hQ]; exact ((hmem x).1 hx).1
  · intro c ⟨h1, h2⟩
    refine Ok.pure ⟨?_, ?_⟩
    · show c.Nodup
      rw [List.Nodup, List.pairwise_iff_getElem]
      intro i j hi hj hij hc
      have a := h2 i _ (List.getElem?_eq_getElem (by omega : i < l.length))
      have b := h2 j _ (List.getElem?_eq_getElem (by omega : j < l.length))
      rw [List.getElem?_eq_getElem hi] at a
      rw [List.getElem?_eq_getElem hj, ← hc] at b
      have := h.get_inj a.symm b.symm
      have hp := (List.pairwise_iff_getElem.1 hnd) i j (by omega) (by omega) hij
      exact hp this
    · intro q
      dsimp only
      constructor
      · intro hq
        obtain ⟨i, hi⟩ := List.getElem?_of_mem hq
        have hil : i < l.length := by
          rw [← h1]; by_contra hc; rw [List.getElem?_eq_none (by omega)] at hi; simp at hi
        have a := h2 i _ (List.getElem?_eq_getElem hil)
        exact ⟨l[i], by rw [← a]; exact hi, ((hmem _).1 (List.getElem_mem hil)).2⟩
      · rintro ⟨j, hj, hh⟩
        have hjl : j ∈ l := (hmem j).2 ⟨by
          rw [h.hQ]; by_contra hc; rw [List.getElem?_eq_none (by omega)] at hj; simp at hj, hh⟩
        obtain ⟨i, hi⟩ := List.getElem?_of_mem hjl
        have a := h2 i j hi
        rw [hj] at a
        exact List.mem_of_getElem? a

theorem Proc.Rep.getChains (h : p.Rep I l0) (E : Emb) : ∀ (us : List Nat) (t : Tape),
    Ok (p.getChains E us t) (fun cs => cs.length = us.length ∧
      ∀ (i u : Nat) (c : List Nat), us[i]? = some u → cs[i]? = some c → Handed p l0 E u c) := by
  intro us
  induction us with
  | nil => intro t; exact Ok.pure (by simp)
  | cons u us ih =>
    intro t
    unfold Proc.getChains
    refine Ok.bind (h.getChain E u t) ?_
    rintro ⟨c, t1⟩ hc
    refine Ok.bind (ih t1) ?_
    intro cs ⟨h1, h2⟩
    refine Ok.pure ⟨by simp [h1], ?_⟩
    intro i v d hi hd
    cases i with
    | zero => simp at hi hd; subst hi; subst hd; exact hc
    | succ i => simp at hi hd; exact h2 i v d hi hd

/-! ### connectedness -/

theorem EInv.to_root (h : EInv P R E) {v r : Nat} (hv : v < P.N) (hr : (E.chains v).links v = some r)
    {a : Nat} (ha : (E.chains v).has a = true) :
    ReflTransGen (fun x y => (E.chains v).has x = true ∧ (E.chains v).has y = true ∧ P.adj x y) a r := by
  obtain ⟨rk, hrk⟩ := (h.cinv v hv).acyc
  generalize hn : rk a = n
  induction n using Nat.strongRecOn generalizing a with
  | ind n ih =>
    obtain ⟨e, he⟩ := Chain.has_iff.1 ha
    by_cases hp : e.parent = a
    · have : a = r := h.root v r hv hr a (by unfold Chain.parents; rw [he]; simp [hp])
      rw [this]
    · have hpar := (h.cinv v hv).pin a e he
      rcases (h.cinv v hv).adj' a e he with hc | hadj
      · exact absurd hc hp
      · exact ReflTransGen.head ⟨ha, hpar, hadj⟩ (ih _ (hn ▸ hrk a e he hp) hpar rfl)

theorem rtg_symm {α : Type} {r : α → α → Prop} (hs : ∀ x y, r x y → r y x) {a b : α} (h : ReflTransGen r a b) :
    ReflTransGen r b a := by
  induction h with
  | refl => exact ReflTransGen.refl
  | tail _ hbc ih => exact ReflTransGen.head (hs _ _ hbc) ih

theorem EInv.conn (h : EInv P R E) {v : Nat} (hv : v < P.N) (hL : E.L v v = true) {a b : Nat}
    (ha : (E.chains v).has a = true) (hb : (E.chains v).has b = true) :
    ReflTransGen (fun x y => (E.chains v).has x = true ∧ (E.chains v).has y = true ∧ P.adj x y) a b := by
  obtain ⟨r, hr⟩ := Emb.L_iff.1 hL
  exact (h.to_root hv hr ha).trans (rtg_symm (fun x y ⟨a, b, c⟩ => ⟨b, a, P.adj_symm _ _ c⟩) (h.to_root hv hr hb))

theorem Proc.Rep.adj (h : p.Rep I l0) {i j x y : Nat} (hi : l0[i]? = some x) (hj : l0[j]? = some y)
    (ha : p.P.adj i j) : I.tgt.Edge x y := by
  rcases ha with ⟨_, ha⟩ | ⟨_, ha⟩
  · exact ((h.qn i j x y hi hj).1 ha).2.1
  · exact ((h.qn j i y x hj hi).1 ha).2.1.symm

theorem getElem?_lt {l : List Nat} {j : Nat} (h : j < l.length) : ∃ x, l[j]? = some x :=
  ⟨l[j], List.getElem?_eq_getElem h⟩

/-! ### success -/

theorem Proc.Rep.chain_conn (h : p.Rep I l0) (hE : EInv p.P R E) {u : Nat} (hu : u < I.src.n)
    (hL : E.L (p.screw u) (p.screw u) = true) {c : List Nat} (hc : Handed p l0 E u c) :
    Spec.ConnectedIn I.tgt c := by
  intro a ha b hb
  obtain ⟨i, hi, hia⟩ := (hc.2 a).1 ha
  obtain ⟨j, hj, hjb⟩ := (hc.2 b).1 hb
  have hN : p.screw u < p.P.N := by rw [h.hN]; exact h.slt u hu
  have hpath := hE.conn hN hL hia hjb
  clear hjb hia ha hb
  induction hpath generalizing b with
  | refl =>
    rw [hi] at hj; simp at hj; rw [hj]
  | @tail k j' hk hkj ih =>
    obtain ⟨k1, k2, k3⟩ := hkj
    have hkQ : k < l0.length := by rw [← h.hQ]; exact (hE.cinv _ hN).has_lt k1
    obtain ⟨x, hx⟩ := getElem?_lt hkQ
    refine (ih x hx).tail ⟨(hc.2 b).2 ⟨j', hj, k2⟩, h.adj hx hj k3⟩

theorem cnt_le_one {f : Nat → Bool} {n i j : Nat} (h : cnt f n ≤ 1) (hi : i < n) (hj : j < n)
    (h1 : f i = true) (h2 : f j = true) : i = j := by
  by_contra hc
  have := cnt_two hi hj hc h1 h2
  omega

theorem Proc.Rep.disj (h : p.Rep I l0) (hI : I.OK) (hE : EInv p.P (fun _ q => q < p.P.nq) E)
    (hfill : ∀ q, q < p.P.nq → E.fill p.P q ≤ 1) {i j q : Nat}
    (hi : i < p.P.N) (hj : j < p.P.N) (h1 : (E.chains i).has q = true) (h2 : (E.chains j).has q = true) : i = j := by
  by_cases hq : q < p.P.nq
  · exact cnt_le_one (f := fun v => (E.chains v).has q) (hfill q hq) hi hj h1 h2
  · have fx : ∀ k, k < p.P.N → (E.chains k).has q = true → p.P.nv ≤ k := by
      intro k _ hk'
      by_contra hc
      exact hq (hE.dom k q (by omega) hk')
    have key : ∀ k, k < p.P.N → (E.chains k).has q = true → ∃ kv ∈ I.fixedC, kv.1 = (p.unscrew k : Int) ∧
        ∃ x ∈ kv.2, l0[q]? = some x.toNat ∧ 0 ≤ x := by
      intro k hk hk'
      have hk1 := fx k hk hk'
      have hk2 := h.us k (by rw [← h.hN]; exact hk)
      have hk3 := (h.fixed _ hk2.1).1 (by rw [hk2.2]; exact hk1)
      obtain ⟨kv, hkv, he⟩ := hk3
      refine ⟨kv, hkv, he, ?_⟩
      have hm := (hE.fixd k q hk1 hk).1 hk'
      have hf := (h.fch kv hkv).1
      have hkk : kv.1.toNat = p.unscrew k := by omega
      rw [hkk, hk2.2] at hf
      rw [hf, List.mem_map] at hm
      obtain ⟨x, hx, hxl⟩ := hm
      have hl := (h.fch kv hkv).2 x hx
      obtain ⟨j', hj'⟩ := List.getElem?_of_mem hl
      have := (h.place j' _ hj').2.2
      refine ⟨x, hx, ?_, ((hI.frange kv hkv).2 x hx).1⟩
      rw [← hxl, this]; exact hj'
    obtain ⟨kv, hkv, e1, x, hx, hx1, hx2⟩ := key i hi h1
    obtain ⟨kv', hkv', e2, y, hy, hy1, hy2⟩ := key j hj h2
    rw [hx1] at hy1
    simp only [Option.some.injEq] at hy1
    have hxy : x = y := by omega
    subst hxy
    by_contra hne
    refine hI.fdisj kv hkv kv' hkv' ?_ x hx hy
    intro hc
    have : p.unscrew i = p.unscrew j := by omega
    have a := (h.us i (by rw [← h.hN]; exact hi)).2
    have b := (h.us j (by rw [← h.hN]; exact hj)).2
    rw [this] at a; omega

/-- What success means, for the caller. -/
theorem Proc.Rep.success (h : p.Rep I l0) (hI : I.OK) (hE : EInv p.P (fun _ q => q < p.P.nq) E)
    (hF : Full p.P E) (hfill : ∀ q, q < p.P.nq → E.fill p.P q ≤ 1) {cs : List (List Nat)}
    (hlen : cs.length = I.src.n)
    (hcs : ∀ (u : Nat) (c : List Nat), cs[u]? = some c → Handed p l0 E u c) :
    Spec.EmbedsUpTo I.FixV I.src I.tgt cs := by
  have hlt : ∀ (u : Nat) (c : List Nat), cs[u]? = some c → u < I.src.n := by
    intro u c hu
    rw [← hlen]; by_contra hc; rw [List.getElem?_eq_none (by omega)] at hu; simp at hu
  have hSN : ∀ u, u < I.src.n → p.screw u < p.P.N := fun u hu => by rw [h.hN]; exact h.slt u hu
  have hNE : ∀ u, u < I.src.n → E.NE (p.screw u) := by
    intro u hu
    by_cases hf : p.screw u < p.P.nv
    · exact hE.L_ne (hSN u hu) (hF _ hf).1
    · exact hE.fixed_NE h.wf (by omega) (hSN u hu)
  refine ⟨hlen, ?_, ?_, ?_, ?_, ?_, ?_⟩
  · intro c hc
    obtain ⟨u, hu⟩ := List.getElem?_of_mem hc
    have hul := hlt u c hu
    obtain ⟨q, hq⟩ := hNE u hul
    have hqQ : q < l0.length := by rw [← h.hQ]; exact (hE.cinv _ (hSN u hul)).has_lt hq
    obtain ⟨x, hx⟩ := getElem?_lt hqQ
    have := ((hcs u c hu).2 x).2 ⟨q, hx, hq⟩
    intro hn; rw [hn] at this; simp at this
  · intro c hc
    obtain ⟨u, hu⟩ := List.getElem?_of_mem hc
    exact (hcs u c hu).1
  · intro c hc q hq
    obtain ⟨u, hu⟩ := List.getElem?_of_mem hc
    obtain ⟨j, hj, _⟩ := ((hcs u c hu).2 q).1 hq
    exact (h.place j q hj).1
  · intro u c hf hu
    have hul := hlt u c hu
    refine h.chain_conn hE hul ?_ (hcs u c hu)
    have : p.screw u < p.P.nv := by
      have := h.fixed u hul
      by_contra hc; exact hf (this.1 (by omega))
    exact (hF _ this).1
  · intro u v c d huv hu hv q hq hq'
    have hul := hlt u c hu
    have hvl := hlt v d hv
    obtain ⟨i, hi, hi'⟩ := ((hcs u c hu).2 q).1 hq
    obtain ⟨j, hj, hj'⟩ := ((hcs v d hv).2 q).1 hq'
    have hij := h.get_inj hi hj
    subst hij
    have := h.disj hI hE hfill (hSN u hul) (hSN v hvl) hi' hj'
    apply huv
    rw [← h.su u hul, ← h.su v hvl, this]
  · -- edges: one end is free
    have key : ∀ (u v : Nat) (c d : List Nat), ¬ I.FixV u → I.src.Edge u v → u ≠ v →
        cs[u]? = some c → cs[v]? = some d → Spec.Joined I.tgt c d := by
      intro u v c d hf he huv hu hv
      have hul := hlt u c hu
      have hvl := hlt v d hv
      have hfree : p.screw u < p.P.nv := by
        have := h.fixed u hul
        by_contra hc; exact hf (this.1 (by omega))
      have hm := (h.vn u v hul hvl hf).2 ⟨huv, he⟩
      have hL := (hF _ hfree).2 _ hm
      obtain ⟨a, ha⟩ := Emb.L_iff.1 hL
      have hne : p.screw u ≠ p.screw v := by
        intro hc; apply huv; rw [← h.su u hul, ← h.su v hvl, hc]
      obtain ⟨b, hb, hnear⟩ := hE.sym _ _ a (hSN u hul) (hSN v hvl) hne ha
      have ha' := (hE.cinv _ (hSN u hul)).lin _ _ ha
      have hb' := (hE.cinv _ (hSN v hvl)).lin _ _ hb
      have haQ : a < l0.length := by rw [← h.hQ]; exact (hE.cinv _ (hSN u hul)).has_lt ha'
      have hbQ : b < l0.length := by rw [← h.hQ]; exact (hE.cinv _ (hSN v hvl)).has_lt hb'
      obtain ⟨x, hx⟩ := getElem?_lt haQ
      obtain ⟨y, hy⟩ := getElem?_lt hbQ
      refine ⟨x, ((hcs u c hu).2 x).2 ⟨a, hx, ha'⟩, y, ((hcs v d hv).2 y).2 ⟨b, hy, hb'⟩, ?_⟩
      rcases hnear with rfl | hadj
      · exact absurd (h.disj hI hE hfill (hSN u hul) (hSN v hvl) ha' hb') hne
      · exact h.adj hx hy hadj
    intro u v c d hf he huv hu hv
    by_cases hfu : I.FixV u
    · have hfv : ¬ I.FixV v := fun hc => hf ⟨hfu, hc⟩
      obtain ⟨x, hx, y, hy, hxy⟩ := key v u d c hfv he.symm (Ne.symm huv) hv hu
      exact ⟨y, hy, x, hx, hxy.symm⟩
    · exact key u v c d hfu he huv hu hv

/-! ### the call -/

/-- `m` ends normally in a value satisfying `Q` or with an exception: no undefined
behaviour and no endless loop. The exception for interrupts needs `i`. -/
def Ends (i : Prop) {α : Type} (m : M α) (Q : α → Prop) : Prop :=
  match m with
  | .ok a => Q a
  | .error e => e ≠ .ub ∧ e ≠ .diverge ∧ (e = .cancelled → i)

theorem Safe.ends {i b : Prop} {α : Type} {m : M α} {Q : α → Prop} (h : Safe i b m Q) : Ends i m Q := by
  rcases h with ⟨a, rfl, ha⟩ | ⟨_, rfl⟩ | ⟨hi, rfl⟩
  · exact ha
  · exact ⟨by simp, by simp, by simp⟩
  · exact ⟨by simp, by simp, fun _ => hi⟩

theorem Ends.mono {i : Prop} {α : Type} {m : M α} {Q Q' : α → Prop} (h : Ends i m Q) (hq : ∀ a, Q a → Q' a) : Ends i m Q' := by
  cases m with
  | ok a => exact hq a h
  | error e => exact h

/-- The final state of a call. -/
structure Final (I : Input) (R : Proc → Nat → Nat → Prop) (ro : Bool) (p : Proc) (l0 : List Nat) (E : Emb)
    (r : Bool × List (List Nat)) : Prop where
  rep : p.Rep I l0
  given : r.1 = true ∨ ro = true → r.2.length = I.src.n ∧
    ∀ (u : Nat) (c : List Nat), r.2[u]? = some c → Handed p l0 E u c
  none : r.1 = false → ro = false → r.2 = []
  yes : r.1 = true → EInv p.P (R p) E ∧ Full p.P E ∧ ∀ q, q < p.P.nq → E.fill p.P q ≤ 1
  no : r.1 = false → E = Emb.empty ∨ EInv p.P (R p) E ∧ Full p.P E ∧ ∃ q, q < p.P.nq ∧ 1 < E.fill p.P q

theorem findEmbedding_spec {sort : List (List Nat) → List (List Nat)} (hs : SortOK sort) (hI : I.OK)
    {R : Proc → Nat → Nat → Prop}
    (hR : ∀ p l0, p.Rep I l0 → Dom p.P (R p) ∧ p.P.Even ∧ InitOK p.P (R p) p.init)
    (C : Cfg) (A : Params) (ro : Bool) (t : Tape) :
    Ends A.Halts (findEmbedding sort C A ro I t) (fun r => ∃ p l0 E, Final I R ro p l0 E r) := by
  unfold findEmbedding
  rcases process_spec hs hI with ⟨p, hp, l0, hrep⟩ | hbad | hbad
  · rw [hp]
    obtain ⟨d1, d2, d3⟩ := hR p l0 hrep
    obtain ⟨X, hX, hri⟩ := Run.new_spec hrep.wf d1 d3 t
    have hbest : X.best = Emb.empty := by
      unfold Run.new at hX
      cases hc : Emb.construct p.P p.init t with
      | error e => rw [hc] at hX; simp [bind, Except.bind] at hX
      | ok r =>
        rw [hc] at hX
        simp only [bind, Except.bind, Except.ok.injEq] at hX
        rw [← hX]
    dsimp only [bind, Except.bind]
    rw [hX]
    dsimp only
    have hN : 0 < p.P.N := by rw [hrep.hN]; exact hI.src_pos
    rcases heuristic_spec hrep.wf d1 d2 hN (C := C) (A := { A with restricted := !I.restrC.isEmpty }) hri with
      ⟨⟨Y, ok⟩, hY, hy1, hy2, hy3⟩ | hY | hY
    · rw [hY]
      dsimp only at hy1 hy2 hy3 ⊢
      have hyes : ok = true → EInv p.P (R p) Y.best ∧ Full p.P Y.best ∧
          ∀ q, q < p.P.nq → Y.best.fill p.P q ≤ 1 := by
        intro hok
        rcases hy3 with hg | ⟨hc, _⟩
        · exact ⟨hg.best.inv, hg.best.full, hg.best.st.flag.1 (by dsimp only; rw [← hy2]; exact hok)⟩
        · rw [hok] at hc; simp at hc
      have hno : ok = false → Y.best = Emb.empty ∨ EInv p.P (R p) Y.best ∧ Full p.P Y.best ∧
          ∃ q, q < p.P.nq ∧ 1 < Y.best.fill p.P q := by
        intro hok
        rcases hy3 with hg | ⟨_, hc⟩
        · right
          refine ⟨hg.best.inv, hg.best.full, ?_⟩
          by_contra hcon
          have : Y.embedded = true := hg.best.st.flag.2 (by
            intro q hq
            by_contra hlt
            exact hcon ⟨q, hq, by omega⟩)
          rw [← hy2, hok] at this
          simp at this
        · left; rw [hc, hbest]
      by_cases hr : (ro || ok) = true
      · rw [if_pos hr]
        obtain ⟨cs, hcs, h1, h2⟩ := hrep.getChains Y.best (List.range I.src.n) Y.S.tape
        rw [hcs]
        refine ⟨p, l0, Y.best, hrep, fun _ => ⟨by simpa using h1, ?_⟩, ?_, hyes, hno⟩
        · intro u c hu
          dsimp only at hu
          have hul : u < I.src.n := by
            have h1' : cs.length = I.src.n := by simpa using h1
            rw [← h1']; by_contra hc; rw [List.getElem?_eq_none (by omega)] at hu; simp at hu
          exact h2 u u c (by rw [List.getElem?_range hul]) hu
        · intro a b; dsimp only at a; rw [a, b] at hr; simp at hr
      · rw [if_neg hr]
        simp only [Bool.or_eq_true, not_or, Bool.not_eq_true] at hr
        refine ⟨p, l0, Y.best, hrep, ?_, fun _ _ => rfl, hyes, hno⟩
        rintro (a | a)
        · dsimp only at a; rw [hr.2] at a; simp at a
        · rw [hr.1] at a; simp at a
    · rw [hY.2]; exact ⟨by simp, by simp, by simp⟩
    · rw [hY.2]; exact ⟨by simp, by simp, fun _ => hY.1⟩
  · rw [hbad]; exact ⟨by simp, by simp, by simp⟩
  · rw [hbad]; exact ⟨by simp, by simp, by simp⟩

theorem Proc.Rep.even (h : p.Rep I l0) (hr : I.restrC = []) : p.P.Even := by
  refine even_free ?_
  intro v q hv hq
  have hvN : v < I.src.n := by rw [← h.hN]; unfold Prob.N; omega
  have hqQ : q < l0.length := by rw [← h.hQ]; unfold Prob.Q; omega
  obtain ⟨x, hx⟩ := getElem?_lt hqQ
  have := (h.acc (p.unscrew v) q x (h.us v hvN).1 hx).2 (by rw [hr]; simp)
  rw [(h.us v hvN).2] at this; exact this

/-- Initial chains of the caller suit the search. -/
theorem Proc.Rep.initOK (h : p.Rep I l0) (hI : I.OK) : InitOK p.P (fun _ q => q < p.P.nq) p.init := by
  have key : ∀ e ∈ p.init, ∃ kv ∈ I.initC, kv.1.toNat < I.src.n ∧ 0 ≤ kv.1 ∧ p.screw kv.1.toNat = e.1 ∧
      e.2 = kv.2.map (fun x => p.comps.label x.toNat) := by
    intro e he
    obtain ⟨kv, hkv, rfl⟩ := (h.init.mem e).1 he
    have := (h.irange kv hkv).1
    exact ⟨kv, hkv, by omega, this.1, rfl, rfl⟩
  refine ⟨?_, ?_, ?_, ?_⟩
  · intro e he
    obtain ⟨kv, hkv, h1, h2, h3, _⟩ := key e he
    rw [← h3]
    by_contra hc
    obtain ⟨kv', hkv', he'⟩ := (h.fixed _ h1).1 (by omega)
    exact hI.ifree kv hkv kv' hkv' (by omega)
  · intro e he hn
    obtain ⟨kv, hkv, _, _, _, h4⟩ := key e he
    rw [h4] at hn
    exact hI.ine kv hkv (List.map_eq_nil_iff.1 hn)
  · intro e he q hq
    obtain ⟨kv, hkv, _, _, _, h4⟩ := key e he
    rw [h4, List.mem_map] at hq
    obtain ⟨x, hx, rfl⟩ := hq
    obtain ⟨x1, x2, x3⟩ := (h.irange kv hkv).2 x hx
    have hb := h.back x.toNat (by omega) x3
    by_contra hc
    obtain ⟨kv', hkv', hm⟩ := (h.resv _ _ hb).1 (by omega)
    rw [Int.toNat_of_nonneg x1] at hm
    exact hI.iavoid kv hkv kv' hkv' x hx hm
  · rw [List.Nodup, List.pairwise_map]
    exact h.init.sorted.imp (fun h => Nat.ne_of_lt h)

end MM
