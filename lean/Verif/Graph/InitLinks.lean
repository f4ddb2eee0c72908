import Verif.Core.QuickInv
import Verif.Graph.Result
import Mathlib.Data.List.Dedup

/-! Which links the initial embedding has, in terms of the caller's chains. -/

namespace MM

open Relation

variable {P : Prob} {R : Nat → Nat → Prop} {E : Emb} {I : Input} {p : Proc} {l0 : List Nat}

namespace Spec

/-- `c` is the chain the caller gives for node `v`, fixed or initial. -/
def Given (I : Input) (v : Nat) (c : List Nat) : Prop :=
  ∃ kv ∈ I.fixedC ++ I.initC, kv.1 = (v : Int) ∧ c = kv.2.map Int.toNat

/-- The chains share a node or are joined by an edge. -/
def Together (g : IGraph) (c d : List Nat) : Prop := Joined g c d ∨ ∃ q ∈ c, q ∈ d

/-- Node `u` has a connected chain that meets or touches the chain of every neighbour that
has one. -/
def Placed (I : Input) (u : Nat) : Prop :=
  ∃ c, Given I u c ∧ ConnectedIn I.tgt c ∧
    ∀ v d, u ≠ v → I.src.Edge u v → Given I v d → Together I.tgt c d

/-- Every node without a fixed chain has a connected initial chain that meets or touches
the chain of every neighbour. -/
def CompleteStart (I : Input) : Prop :=
  ∀ u, u < I.src.n → ¬ I.FixV u → ∃ c, Given I u c ∧ ConnectedIn I.tgt c ∧
    ∀ v, u ≠ v → I.src.Edge u v → ∃ d, Given I v d ∧ Together I.tgt c d

end Spec

/-- Two chains that are linked share a node or are joined by an edge. -/
theorem Handed.linked {u v : Nat} {c d : List Nat} (h : p.Rep I l0)
    (hu : u < I.src.n) (hv : v < I.src.n) (huv : u ≠ v) (hE : EInv p.P R E)
    (hL : E.L (p.screw u) (p.screw v) = true) (hc : Handed p l0 E u c) (hd : Handed p l0 E v d) :
    Spec.Joined I.tgt c d ∨ ∃ q ∈ c, q ∈ d := by
  have hSN : ∀ u, u < I.src.n → p.screw u < p.P.N := fun u hu => by rw [h.hN]; exact h.slt u hu
  obtain ⟨a, ha⟩ := Emb.L_iff.1 hL
  have hne : p.screw u ≠ p.screw v := by
    intro hc; apply huv; rw [← h.su u hu, ← h.su v hv, hc]
  obtain ⟨b, hb, hnear⟩ := hE.sym _ _ a (hSN u hu) (hSN v hv) hne ha
  have ha' := (hE.cinv _ (hSN u hu)).lin _ _ ha
  have hb' := (hE.cinv _ (hSN v hv)).lin _ _ hb
  have haQ : a < l0.length := by rw [← h.hQ]; exact (hE.cinv _ (hSN u hu)).has_lt ha'
  have hbQ : b < l0.length := by rw [← h.hQ]; exact (hE.cinv _ (hSN v hv)).has_lt hb'
  obtain ⟨x, hx⟩ := getElem?_lt haQ
  obtain ⟨y, hy⟩ := getElem?_lt hbQ
  have m1 := (hc.2 x).2 ⟨a, hx, ha'⟩
  have m2 := (hd.2 y).2 ⟨b, hy, hb'⟩
  rcases hnear with rfl | hadj
  · rw [hx] at hy
    simp only [Option.some.injEq] at hy
    subst hy
    exact Or.inr ⟨x, m1, m2⟩
  · exact Or.inl ⟨x, m1, y, m2, h.adj hx hy hadj⟩

/-- What the constructor of the initial embedding leaves. -/
structure Started (P : Prob) (R : Nat → Nat → Prop) (init : List (Nat × List Nat)) (E : Emb) : Prop where
  shape : E.Shape P R
  has : ∀ v q, v < P.nv → ((E.chains v).has q = true ↔ ∃ qs, (v, qs) ∈ init ∧ q ∈ qs)
  conn : ∀ x ∈ init, (∀ i ∈ x.2, ∀ j ∈ x.2, ReflTransGen (fun a b => b ∈ P.qn a ∧ b ∈ x.2) i j) →
    E.L x.1 x.1 = true
  touch : ∀ x ∈ init, ∀ u ∈ P.vn x.1, x.1 < u → Touch P (E.chains x.1) (E.chains u) → E.L x.1 u = true

/-- The embedding a new run starts from. -/
theorem Run.new_started (wf : P.WF) (hR : Dom P R) {init : List (Nat × List Nat)} (hi : InitOK P R init)
    (t : Tape) : Ok (Run.new P init t) (fun X => Started P R init X.init) := by
  unfold Run.new
  refine Ok.bind (construct_full wf hR hi) ?_
  rintro ⟨E, t⟩ ⟨h1, h2, h3, h4⟩
  exact Ok.pure ⟨h1, h2, h3, h4⟩

theorem connectedIn_congr {g : IGraph} {c d : List Nat} (h : ∀ q, q ∈ c ↔ q ∈ d) (hc : Spec.ConnectedIn g c) :
    Spec.ConnectedIn g d := by
  intro a ha b hb
  exact ReflTransGen.mono (fun x y hxy => ⟨(h y).1 hxy.1, hxy.2⟩) a b (hc a ((h a).2 ha) b ((h b).2 hb))

theorem Spec.Given.unique (hI : I.OK) {v : Nat} {c d : List Nat} (hc : Given I v c) (hd : Given I v d) : c = d := by
  obtain ⟨a, ha, a1, rfl⟩ := hc
  obtain ⟨b, hb, b1, rfl⟩ := hd
  have hab : a.1 = b.1 := by rw [a1, b1]
  rcases List.mem_append.1 ha with ha | ha <;> rcases List.mem_append.1 hb with hb | hb
  · rw [fst_unique hI.fkeys ha hb hab]
  · exact absurd hab.symm (hI.ifree b hb a ha)
  · exact absurd hab (hI.ifree a ha b hb)
  · rw [fst_unique hI.ikeys ha hb hab]

namespace Started

variable (h : p.Rep I l0) (hI : I.OK) (hE : Started p.P R p.init E)

include h hE

/-- The nodes of a given chain. -/
theorem given {v : Nat} {c : List Nat} (hI : I.OK) (hc : Spec.Given I v c) :
    Handed p l0 E v c.dedup := by
  refine ⟨List.nodup_dedup c, fun q => ?_⟩
  rw [List.mem_dedup]
  obtain ⟨kv, hkv, he, rfl⟩ := hc
  rw [List.mem_map]
  rcases List.mem_append.1 hkv with hf | hi
  · obtain ⟨f1, f2⟩ := h.fch kv hf
    have hrg := hI.frange kv hf
    have hv : kv.1.toNat = v := by omega
    rw [hv] at f1
    have hvl : v < I.src.n := by omega
    have hnv := (h.fixed v hvl).2 ⟨kv, hf, he⟩
    have hN : p.screw v < p.P.N := by rw [h.hN]; exact h.slt v hvl
    constructor
    · rintro ⟨x, hx, rfl⟩
      obtain ⟨j, hj⟩ := List.getElem?_of_mem (f2 x hx)
      refine ⟨j, hj, (hE.shape.fixd _ j hnv hN).2 ?_⟩
      rw [f1, List.mem_map]
      exact ⟨x, hx, (h.place j _ hj).2.2⟩
    · rintro ⟨j, hj, hh⟩
      have := (hE.shape.fixd _ j hnv hN).1 hh
      rw [f1, List.mem_map] at this
      obtain ⟨x, hx, hxl⟩ := this
      obtain ⟨i, hi⟩ := List.getElem?_of_mem (f2 x hx)
      have := (h.place i _ hi).2.2
      rw [hxl] at this
      subst this
      rw [hj] at hi
      simp only [Option.some.injEq] at hi
      exact ⟨x, hx, hi.symm⟩
  · obtain ⟨k1, k2⟩ := h.irange kv hi
    have hv : kv.1.toNat = v := by omega
    have hvl : v < I.src.n := by omega
    have hfree : ¬ I.FixV v := by
      rintro ⟨kv', hkv', he'⟩
      exact hI.ifree kv hi kv' hkv' (by rw [he, he'])
    have hnv : p.screw v < p.P.nv := by
      by_contra hc; exact hfree ((h.fixed v hvl).1 (by omega))
    constructor
    · rintro ⟨x, hx, rfl⟩
      obtain ⟨x1, x2, x3⟩ := k2 x hx
      have hb := h.back x.toNat (by omega) x3
      refine ⟨_, hb, (hE.has _ _ hnv).2 ⟨kv.2.map (fun x => p.comps.label x.toNat),
        (h.init.mem _).2 ⟨kv, hi, by rw [hv]⟩, List.mem_map.2 ⟨x, hx, rfl⟩⟩⟩
    · rintro ⟨j, hj, hh⟩
      obtain ⟨qs, hq, hjq⟩ := (hE.has _ _ hnv).1 hh
      obtain ⟨kv', hkv', e⟩ := (h.init.mem _).1 hq
      simp only [Prod.mk.injEq] at e
      obtain ⟨e1, rfl⟩ := e
      obtain ⟨r1, r2⟩ := h.irange kv' hkv'
      have hk : kv'.1.toNat = v := by
        rw [← h.su _ (by omega : kv'.1.toNat < I.src.n), ← e1, h.su v hvl]
      have : kv' = kv := fst_unique hI.ikeys hkv' hi (by omega)
      subst this
      obtain ⟨y, hy, hyj⟩ := List.mem_map.1 hjq
      obtain ⟨y1, y2, y3⟩ := r2 y hy
      have hb := h.back y.toNat (by omega) y3
      rw [hyj, hj] at hb
      simp only [Option.some.injEq] at hb
      exact ⟨y, hy, hb.symm⟩

theorem ne_iff (hI : I.OK) {v : Nat} (hv : v < I.src.n) : E.NE (p.screw v) ↔ ∃ c, Spec.Given I v c := by
  have hN : p.screw v < p.P.N := by rw [h.hN]; exact h.slt v hv
  constructor
  · rintro ⟨j, hj⟩
    by_cases hf : I.FixV v
    · obtain ⟨kv, hkv, he⟩ := hf
      exact ⟨_, kv, by simp [hkv], he, rfl⟩
    · have hnv : p.screw v < p.P.nv := by
        by_contra hc; exact hf ((h.fixed v hv).1 (by omega))
      obtain ⟨qs, hq, hjq⟩ := (hE.has _ _ hnv).1 hj
      obtain ⟨kv', hkv', e⟩ := (h.init.mem _).1 hq
      simp only [Prod.mk.injEq] at e
      obtain ⟨r1, r2⟩ := h.irange kv' hkv'
      have hk : kv'.1.toNat = v := by
        rw [← h.su _ (by omega : kv'.1.toNat < I.src.n), ← e.1, h.su v hv]
      exact ⟨_, kv', by simp [hkv'], by omega, rfl⟩
  · rintro ⟨c, hc⟩
    have hh := given h hE hI hc
    have hne : c ≠ [] := by
      obtain ⟨kv, hkv, _, rfl⟩ := hc
      rcases List.mem_append.1 hkv with hk | hk
      · have := hI.fne kv hk; simpa using this
      · have := hI.ine kv hk; simpa using this
    obtain ⟨x, hx⟩ := List.exists_mem_of_ne_nil _ hne
    obtain ⟨j, _, hj⟩ := (hh.2 x).1 (List.mem_dedup.2 hx)
    exact ⟨j, hj⟩

/-- A chain is linked to itself exactly when it is connected. -/
theorem self_iff (hI : I.OK) {u : Nat} (hu : u < I.src.n) (hf : ¬ I.FixV u) {c : List Nat} (hc : Spec.Given I u c) :
    E.L (p.screw u) (p.screw u) = true ↔ Spec.ConnectedIn I.tgt c := by
  have hh := given h hE hI hc
  constructor
  · intro hL
    exact connectedIn_congr (fun q => List.mem_dedup) (h.chain_conn hE.shape.toEInv hu hL hh)
  · intro hcn
    obtain ⟨kv, hkv, he, rfl⟩ := hc
    have hki : kv ∈ I.initC := by
      rcases List.mem_append.1 hkv with hk | hk
      · exact absurd ⟨kv, hk, he⟩ hf
      · exact hk
    obtain ⟨r1, r2⟩ := h.irange kv hki
    have hk : kv.1.toNat = u := by omega
    have hm : (p.screw u, kv.2.map (fun x => p.comps.label x.toNat)) ∈ p.init :=
      (h.init.mem _).2 ⟨kv, hki, by rw [hk]⟩
    refine hE.conn _ hm ?_
    dsimp only
    intro i hi j hj
    obtain ⟨x, hx, rfl⟩ := List.mem_map.1 hi
    obtain ⟨y, hy, rfl⟩ := List.mem_map.1 hj
    have hpath := hcn x.toNat (List.mem_map.2 ⟨x, hx, rfl⟩) y.toNat (List.mem_map.2 ⟨y, hy, rfl⟩)
    suffices hg : ∀ b, ReflTransGen (fun x y => y ∈ kv.2.map Int.toNat ∧ I.tgt.Edge x y) x.toNat b →
        b ∈ kv.2.map Int.toNat ∧ ReflTransGen (fun a b => b ∈ p.P.qn a ∧
          b ∈ kv.2.map (fun x => p.comps.label x.toNat)) (p.comps.label x.toNat) (p.comps.label b) from
      (hg _ hpath).2
    intro b hb
    induction hb with
    | refl => exact ⟨List.mem_map.2 ⟨x, hx, rfl⟩, ReflTransGen.refl⟩
    | @tail a b _ hab ih =>
      obtain ⟨i1, i2⟩ := ih
      refine ⟨hab.1, ?_⟩
      by_cases hne : a = b
      · rw [← hne]; exact i2
      refine i2.tail ⟨?_, ?_⟩
      · obtain ⟨z, hz, rfl⟩ := List.mem_map.1 i1
        obtain ⟨w, hw, rfl⟩ := List.mem_map.1 hab.1
        obtain ⟨z1, z2, z3⟩ := r2 z hz
        obtain ⟨w1, w2, w3⟩ := r2 w hw
        refine (h.qn _ _ _ _ (h.back z.toNat (by omega) z3) (h.back w.toNat (by omega) w3)).2
          ⟨hne, hab.2, ?_⟩
        rintro ⟨kv', hkv', hm'⟩
        rw [Int.toNat_of_nonneg w1] at hm'
        exact hI.iavoid kv hki kv' hkv' w hw hm'
      · obtain ⟨w, hw, rfl⟩ := List.mem_map.1 hab.1
        exact List.mem_map.2 ⟨w, hw, rfl⟩

theorem touch_of (hI : I.OK) {u v : Nat} {c d : List Nat}
    (hc : Spec.Given I u c) (hfu : ¬ I.FixV u) (hd : Spec.Given I v d) (ht : Spec.Together I.tgt c d) :
    Touch p.P (E.chains (p.screw u)) (E.chains (p.screw v)) := by
  have h1 := given h hE hI hc
  have h2 := given h hE hI hd
  have meet : ∀ q, q ∈ c → q ∈ d → Touch p.P (E.chains (p.screw u)) (E.chains (p.screw v)) := by
    intro q hq hq'
    obtain ⟨i, hi, hi'⟩ := (h1.2 q).1 (List.mem_dedup.2 hq)
    obtain ⟨j, hj, hj'⟩ := (h2.2 q).1 (List.mem_dedup.2 hq')
    rw [h.get_inj hj hi] at hj'
    exact Or.inr ⟨i, hi', hj'⟩
  rcases ht with ⟨x, hx, y, hy, hxy⟩ | ⟨q, hq, hq'⟩
  · by_cases he : x = y
    · subst he; exact meet x hx hy
    obtain ⟨i, hi, hi'⟩ := (h1.2 x).1 (List.mem_dedup.2 hx)
    obtain ⟨j, hj, hj'⟩ := (h2.2 y).1 (List.mem_dedup.2 hy)
    refine Or.inl ⟨j, i, hj', (h.qn j i y x hj hi).2 ⟨Ne.symm he, hxy.symm, ?_⟩, hi'⟩
    rintro ⟨kv', hkv', hm'⟩
    obtain ⟨kv, hkv, hk, rfl⟩ := hc
    rcases List.mem_append.1 hkv with hf | hf
    · exact hfu ⟨kv, hf, hk⟩
    · obtain ⟨z, hz, hzx⟩ := List.mem_map.1 hx
      have z1 := ((h.irange kv hf).2 z hz).1
      have : (x : Int) = z := by omega
      rw [this] at hm'
      exact hI.iavoid kv hf kv' hkv' z hz hm'
  · exact meet q hq hq'

/-- Chains of neighbours are linked exactly when they meet or touch. -/
theorem pair_iff (hI : I.OK) {u v : Nat} (hu : u < I.src.n) (hv : v < I.src.n) (hf : ¬ I.FixV u) (huv : u ≠ v)
    (he : I.src.Edge u v) {c d : List Nat} (hc : Spec.Given I u c) (hd : Spec.Given I v d) :
    E.L (p.screw u) (p.screw v) = true ↔ Spec.Together I.tgt c d := by
  have hSN : ∀ u, u < I.src.n → p.screw u < p.P.N := fun u hu => by rw [h.hN]; exact h.slt u hu
  have mem : ∀ u c, ¬ I.FixV u → Spec.Given I u c → ∃ qs, (p.screw u, qs) ∈ p.init := by
    rintro u c hf ⟨kv, hkv, he, rfl⟩
    rcases List.mem_append.1 hkv with hk | hk
    · exact absurd ⟨kv, hk, he⟩ hf
    · have hr := (h.irange kv hk).1
      have : kv.1.toNat = u := by omega
      exact ⟨_, (h.init.mem _).2 ⟨kv, hk, by rw [this]⟩⟩
  have hne : p.screw u ≠ p.screw v := by
    intro hc; apply huv; rw [← h.su u hu, ← h.su v hv, hc]
  constructor
  · intro hL
    have := (given h hE hI hc).linked h hu hv huv hE.shape.toEInv hL (given h hE hI hd)
    rcases this with ⟨x, hx, y, hy, hxy⟩ | ⟨q, hq, hq'⟩
    · exact Or.inl ⟨x, List.mem_dedup.1 hx, y, List.mem_dedup.1 hy, hxy⟩
    · exact Or.inr ⟨q, List.mem_dedup.1 hq, List.mem_dedup.1 hq'⟩
  · intro ht
    by_cases hlt : p.screw u < p.screw v
    · obtain ⟨qs, hm⟩ := mem u c hf hc
      exact hE.touch _ hm _ ((h.vn u v hu hv hf).2 ⟨huv, he⟩) hlt (touch_of h hE hI hc hf hd ht)
    · have hfv : ¬ I.FixV v := by
        intro hc'
        have h1 := (h.fixed v hv).2 hc'
        exact hf ((h.fixed u hu).1 (by omega))
      obtain ⟨qs, hm⟩ := mem v d hfv hd
      have ht' : Spec.Together I.tgt d c := by
        rcases ht with ⟨x, hx, y, hy, hxy⟩ | ⟨q, hq, hq'⟩
        · exact Or.inl ⟨y, hy, x, hx, hxy.symm⟩
        · exact Or.inr ⟨q, hq', hq⟩
      have := hE.touch _ hm _ ((h.vn v u hv hu hfv).2 ⟨Ne.symm huv, he.symm⟩) (by dsimp only; omega)
        (touch_of h hE hI hd hfv hc ht')
      have hsym : E.L (p.screw u) (p.screw v) = E.L (p.screw v) (p.screw u) :=
        hE.shape.toEInv.L_symm (hSN u hu) (hSN v hv)
      rw [hsym]; exact this

/-- The initial embedding is linked exactly when the caller's chains are complete. -/
theorem linked_iff (hI : I.OK) {S : Scratch} (hS : VnOK p.P S) :
    E.linked p.P S.vn = true ↔ Spec.CompleteStart I := by
  unfold Emb.linked
  rw [List.all_eq_true]
  have hSN : ∀ u, u < I.src.n → p.screw u < p.P.N := fun u hu => by rw [h.hN]; exact h.slt u hu
  have hL : ∀ a b, ((E.chains a).links b).isSome = E.L a b := fun _ _ => rfl
  constructor
  · intro hall u hu hf
    have hnv : p.screw u < p.P.nv := by
      by_contra hc; exact hf ((h.fixed u hu).1 (by omega))
    have h1 := hall (p.screw u) (List.mem_range.2 hnv)
    unfold Emb.linked1 at h1
    rw [Bool.and_eq_true, List.all_eq_true, hL] at h1
    obtain ⟨c, hc⟩ := (ne_iff h hE hI hu).1 (hE.shape.toEInv.L_ne (hSN u hu) h1.1)
    refine ⟨c, hc, (self_iff h hE hI hu hf hc).1 h1.1, ?_⟩
    intro v huv he
    have hv := (he.lt hI.src).2
    have hm := (hS.mem hnv _).2 ((h.vn u v hu hv hf).2 ⟨huv, he⟩)
    have h2 : E.L (p.screw u) (p.screw v) = true := h1.2 _ hm
    have h3 : E.L (p.screw v) (p.screw u) = true := by
      have : E.L (p.screw u) (p.screw v) = E.L (p.screw v) (p.screw u) :=
        hE.shape.toEInv.L_symm (hSN u hu) (hSN v hv)
      rw [← this]; exact h2
    obtain ⟨d, hd⟩ := (ne_iff h hE hI hv).1 (hE.shape.toEInv.L_ne (hSN v hv) h3)
    exact ⟨d, hd, (pair_iff h hE hI hu hv hf huv he hc hd).1 h2⟩
  · intro hall i hi
    have hi' := List.mem_range.1 hi
    have hiN : i < I.src.n := by rw [← h.hN]; unfold Prob.N; omega
    obtain ⟨u1, u2⟩ := h.us i hiN
    have hf : ¬ I.FixV (p.unscrew i) := by
      intro hc; have := (h.fixed _ u1).2 hc; rw [u2] at this; omega
    obtain ⟨c, hc, c1, c2⟩ := hall _ u1 hf
    unfold Emb.linked1
    rw [Bool.and_eq_true, List.all_eq_true, hL]
    constructor
    · have := (self_iff h hE hI u1 hf hc).2 c1
      rw [u2] at this; exact this
    · intro j hj
      have hj' := (hS.mem hi' _).1 hj
      have hjN : j < I.src.n := by rw [← h.hN]; exact h.wf.vn_lt i j hi' hj'
      obtain ⟨v1, v2⟩ := h.us j hjN
      have hvn := (h.vn _ _ u1 v1 hf).1 (by rw [u2, v2]; exact hj')
      obtain ⟨d, hd, ht⟩ := c2 _ hvn.1 hvn.2
      have := (pair_iff h hE hI u1 v1 hf hvn.1 hvn.2 hc hd).2 ht
      rw [u2, v2] at this
      exact this

/-- What local search needs. -/
theorem holds (hI : I.OK) {u : Nat} (hu : u < I.src.n) (hf : ¬ I.FixV u) (hp : Spec.Placed I u) :
    E.NE (p.screw u) ∧ Holds p.P E (p.screw u) := by
  obtain ⟨c, hc, c1, c2⟩ := hp
  have hnv : p.screw u < p.P.nv := by
    by_contra hc; exact hf ((h.fixed u hu).1 (by omega))
  refine ⟨(ne_iff h hE hI hu).2 ⟨c, hc⟩, (self_iff h hE hI hu hf hc).2 c1, ?_⟩
  intro j hj hne
  have hjN : j < I.src.n := by rw [← h.hN]; exact h.wf.vn_lt _ j hnv hj
  obtain ⟨v1, v2⟩ := h.us j hjN
  rw [← v2] at hj hne ⊢
  obtain ⟨d, hd⟩ := (ne_iff h hE hI v1).1 hne
  have hvn := (h.vn _ _ hu v1 hf).1 hj
  exact (pair_iff h hE hI hu v1 hf hvn.1 hvn.2 hc hd).2 (c2 _ d hvn.1 hvn.2 hd)

end Started

end MM
