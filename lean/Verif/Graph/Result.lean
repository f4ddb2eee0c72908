import Verif.Graph.Find

/-! Consequences of the final state of a call, used by the property theorems. -/

namespace MM

open Scratch (Cfg)

variable {sort : List (List Nat) → List (List Nat)} {I : Input}

/-- The caller's restrictions let variable `v` use target node `x`. -/
def Input.Allows (I : Input) (v x : Nat) : Prop := ∀ kv ∈ I.restrC, kv.1 = (v : Int) → (x : Int) ∈ kv.2

/-- The restrictions of the neighbours of a free variable agree outside its own: what one
neighbour may use, the variable itself or every other neighbour may use too. -/
def Input.Compatible (I : Input) : Prop :=
  ∀ u v v' x, ¬ I.FixV u → I.src.Edge u v → I.src.Edge u v' → u ≠ v → u ≠ v' → x < I.tgt.n →
    I.Allows v' x → I.Allows u x ∨ I.Allows v x

theorem Input.compatible_of_nil (h : I.restrC = []) : I.Compatible := by
  intro u v v' x _ _ _ _ _ _ _
  left
  intro kv hkv
  rw [h] at hkv
  simp at hkv

/-- The domain in which the chain of a variable stays: its own restriction and those of its
neighbours. -/
def Prob.Soft (P : Prob) (u q : Nat) : Prop :=
  q < P.nq ∧ (P.accepts u q = true ∨ ∃ v ∈ P.vn u, P.accepts v q = true)

theorem dom_soft (P : Prob) : Dom P P.Soft :=
  ⟨fun _ _ _ h => h.1, fun _ _ _ _ _ _ h ha => ⟨h.1, Or.inl ha⟩, fun _ _ _ h ha => ⟨h, Or.inl ha⟩,
    fun _ v _ _ hv h ha => ⟨h, ha.imp_right fun a => ⟨v, hv, a⟩⟩⟩

theorem Emb.Shape.mono {P : Prob} {R R' : Nat → Nat → Prop} {E : Emb} (h : E.Shape P R)
    (hr : ∀ v q, v < P.nv → R v q → R' v q) : E.Shape P R' :=
  ⟨h.cinv, h.lab, h.sym, h.nbr, h.root, fun v q hv hq => hr v q hv (h.dom v q hv hq), h.fixd⟩

theorem EInv.mono {P : Prob} {R R' : Nat → Nat → Prop} {E : Emb} (h : EInv P R E)
    (hr : ∀ v q, v < P.nv → R v q → R' v q) : EInv P R' E :=
  ⟨h.toShape.mono hr, h.exact⟩

theorem Proc.Rep.acc_iff {p : Proc} {l0 : List Nat} (h : p.Rep I l0) {v j x : Nat} (hv : v < I.src.n)
    (hj : l0[j]? = some x) : p.P.accepts (p.screw v) j = true ↔ I.Allows v x := h.acc v j x hv hj

theorem Proc.Rep.vn_iff {p : Proc} {l0 : List Nat} (h : p.Rep I l0) {u w : Nat} (hu : u < p.P.nv) :
    w ∈ p.P.vn u → w < I.src.n ∧ ¬ I.FixV (p.unscrew u) ∧ p.unscrew u ≠ p.unscrew w ∧
      I.src.Edge (p.unscrew u) (p.unscrew w) ∧ p.unscrew w < I.src.n ∧ p.screw (p.unscrew w) = w ∧
      p.unscrew u < I.src.n ∧ p.screw (p.unscrew u) = u := by
  intro hw
  have hwN : w < I.src.n := by
    rw [← h.hN]; exact h.wf.vn_lt u w hu hw
  have huN : u < I.src.n := by rw [← h.hN]; unfold Prob.N; omega
  obtain ⟨u1, u2⟩ := h.us u huN
  obtain ⟨w1, w2⟩ := h.us w hwN
  have hf : ¬ I.FixV (p.unscrew u) := by
    intro hc
    have := (h.fixed _ u1).2 hc
    rw [u2] at this; omega
  have := (h.vn _ _ u1 w1 hf).1 (by rw [u2, w2]; exact hw)
  exact ⟨hwN, hf, this.1, this.2, w1, w2, u1, u2⟩

theorem Proc.Rep.even' {p : Proc} {l0 : List Nat} (h : p.Rep I l0) (hc : I.Compatible) : p.P.Even := by
  intro u v v' q hu hv hv' hq ha
  obtain ⟨_, hf, n1, e1, w1, w2, u1, u2⟩ := h.vn_iff hu hv
  obtain ⟨_, _, n2, e2, w1', w2', _, _⟩ := h.vn_iff hu hv'
  have hqQ : q < l0.length := by rw [← h.hQ]; unfold Prob.Q; omega
  obtain ⟨x, hx⟩ := getElem?_lt hqQ
  have hxn := (h.place q x hx).1
  rw [← w2'] at ha
  have := hc _ _ _ x hf e1 e2 n1 n2 hxn ((h.acc_iff w1' hx).1 ha)
  rw [← h.acc_iff u1 hx, ← h.acc_iff w1 hx, u2, w2] at this
  exact this

/-- The facts common to the properties below. -/
theorem findEmbedding_free (hs : SortOK sort) (hI : I.OK) (hr : I.Compatible) (C : Cfg) (A : Params)
    (ro : Bool) (t : Tape) :
    Ends A.Halts (findEmbedding sort C A ro I t) (fun r => ∃ p l0 E, Final I (fun p _ q => q < p.P.nq) ro p l0 E r) :=
  findEmbedding_spec hs hI (R := fun p _ q => q < p.P.nq)
    (fun p _ h => ⟨dom_free p.P, h.even' hr, h.initOK hI⟩) C A ro t

theorem findEmbedding_final (hs : SortOK sort) (hI : I.OK) (hr : I.Compatible) {C : Cfg} {A : Params}
    {ro : Bool} {t : Tape} {r : Bool × List (List Nat)} (h : findEmbedding sort C A ro I t = .ok r) :
    ∃ p l0 E, Final I (fun p _ q => q < p.P.nq) ro p l0 E r := by
  have := findEmbedding_free hs hI hr C A ro t
  rw [h] at this
  exact this

/-- Initial chains inside the soft domains. -/
theorem Proc.Rep.initOK_soft {p : Proc} {l0 : List Nat} (h : p.Rep I l0) (hI : I.OK)
    (hi : ∀ kv ∈ I.initC, ∀ x ∈ kv.2, I.Allows kv.1.toNat x.toNat ∨
      ∃ v, I.src.Edge kv.1.toNat v ∧ v ≠ kv.1.toNat ∧ I.Allows v x.toNat) : InitOK p.P p.P.Soft p.init := by
  have h0 := h.initOK hI
  refine ⟨h0.free, h0.ne, ?_, h0.nodup⟩
  intro e he q hq
  refine ⟨h0.dom e he q hq, ?_⟩
  obtain ⟨kv, hkv, rfl⟩ := (h.init.mem e).1 he
  have hr := (h.irange kv hkv)
  have hlt : kv.1.toNat < I.src.n := by have := hr.1; omega
  dsimp only at hq ⊢
  rw [List.mem_map] at hq
  obtain ⟨x, hx, rfl⟩ := hq
  obtain ⟨x1, x2, x3⟩ := hr.2 x hx
  have hb := h.back x.toNat (by omega) x3
  rcases hi kv hkv x hx with ha | ⟨v, hv, hne, ha⟩
  · left; exact (h.acc_iff hlt hb).2 ha
  · right
    have hvn := (IGraph.Edge.lt hI.src hv).2
    have hf : ¬ I.FixV kv.1.toNat := by
      rintro ⟨kv', hkv', he'⟩
      exact hI.ifree kv hkv kv' hkv' (by have := hr.1; omega)
    exact ⟨p.screw v, (h.vn _ _ hlt hvn hf).2 ⟨Ne.symm hne, hv⟩, (h.acc_iff hvn hb).2 ha⟩

theorem findEmbedding_soft (hs : SortOK sort) (hI : I.OK) (hr : I.Compatible)
    (hi : ∀ kv ∈ I.initC, ∀ x ∈ kv.2, I.Allows kv.1.toNat x.toNat ∨
      ∃ v, I.src.Edge kv.1.toNat v ∧ v ≠ kv.1.toNat ∧ I.Allows v x.toNat)
    {C : Cfg} {A : Params} {ro : Bool} {t : Tape} {r : Bool × List (List Nat)}
    (h : findEmbedding sort C A ro I t = .ok r) :
    ∃ p l0 E, Final I (fun p => p.P.Soft) ro p l0 E r := by
  have := findEmbedding_spec hs hI (R := fun p => p.P.Soft)
    (fun p _ h => ⟨dom_soft p.P, h.even' hr, h.initOK_soft hI hi⟩) C A ro t
  rw [h] at this
  exact this

/-- The chain of a fixed variable, in a state in which the invariant holds. -/
theorem Proc.Rep.fixed_chain {p : Proc} {R : Nat → Nat → Prop} {l0 : List Nat} {E : Emb}
    (h : p.Rep I l0) (hI : I.OK) (hE : EInv p.P R E)
    {kv : Int × List Int} (hkv : kv ∈ I.fixedC) {c : List Nat} (hc : Handed p l0 E kv.1.toNat c) (q : Nat) :
    q ∈ c ↔ (q : Int) ∈ kv.2 := by
  have hrg := hI.frange kv hkv
  have hlt : kv.1.toNat < I.src.n := by omega
  have hnv : p.P.nv ≤ p.screw kv.1.toNat :=
    (h.fixed _ hlt).2 ⟨kv, hkv, by omega⟩
  have hN : p.screw kv.1.toNat < p.P.N := by rw [h.hN]; exact h.slt _ hlt
  obtain ⟨h1, h2⟩ := h.fch kv hkv
  rw [hc.2 q]
  constructor
  · rintro ⟨j, hj, hh⟩
    have hm := (hE.fixd _ j hnv hN).1 hh
    rw [h1, List.mem_map] at hm
    obtain ⟨x, hx, hxj⟩ := hm
    obtain ⟨j', hj'⟩ := List.getElem?_of_mem (h2 x hx)
    have hp := (h.place j' _ hj').2.2
    rw [← hxj, hp, hj'] at hj
    simp only [Option.some.injEq] at hj
    have := (hrg.2 x hx).1
    have : x = (q : Int) := by omega
    rw [← this]; exact hx
  · intro hq
    have h3 := h2 _ hq
    simp only [Int.toNat_natCast] at h3
    obtain ⟨j, hj⟩ := List.getElem?_of_mem h3
    refine ⟨j, hj, (hE.fixd _ j hnv hN).2 ?_⟩
    rw [h1, List.mem_map]
    exact ⟨_, hq, by simp only [Int.toNat_natCast]; exact (h.place j q hj).2.2⟩

theorem Final.fixed_chain {R : Proc → Nat → Nat → Prop} {ro : Bool} {p : Proc} {l0 : List Nat} {E : Emb}
    {r : Bool × List (List Nat)} (hI : I.OK) (hf : Final I R ro p l0 E r) (hE : EInv p.P (R p) E)
    {kv : Int × List Int} (hkv : kv ∈ I.fixedC) {c : List Nat} (hc : Handed p l0 E kv.1.toNat c) (q : Nat) :
    q ∈ c ↔ (q : Int) ∈ kv.2 :=
  hf.rep.fixed_chain hI hE hkv hc q

/-- Every chain handed out by a state without chains is empty. -/
theorem handed_empty {p : Proc} {l0 : List Nat} {u : Nat} {c : List Nat} (h : Handed p l0 Emb.empty u c) : c = [] := by
  cases c with
  | nil => rfl
  | cons a l =>
    obtain ⟨j, _, hh⟩ := (h.2 a).1 (by simp)
    simp [Emb.empty, Chain.empty, Chain.has] at hh

theorem two_of_cnt {f : Nat → Bool} {n : Nat} (h : 1 < cnt f n) :
    ∃ i j, i < n ∧ j < n ∧ i ≠ j ∧ f i = true ∧ f j = true := by
  induction n with
  | zero => simp [cnt] at h
  | succ n ih =>
    rw [cnt] at h
    by_cases hn : f n = true
    · rw [if_pos hn] at h
      obtain ⟨i, hi, hfi⟩ := cnt_exists (p := f) (n := n) (by omega)
      exact ⟨i, n, by omega, by omega, by omega, hfi, hn⟩
    · rw [if_neg hn] at h
      obtain ⟨i, j, hi, hj, hij, a, b⟩ := ih (by omega)
      exact ⟨i, j, by omega, by omega, hij, a, b⟩

end MM
