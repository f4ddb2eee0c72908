import Verif.Core.ChainInv

/-! `steal` and `link_path` preserve the chain invariant. -/

namespace MM
namespace Chain

variable {nv nq : Nat} {adj : Nat → Nat → Prop} {c o : Chain}

/-- Qubits that are their own parent after the step were so before. -/
def SelfPres (c c' : Chain) : Prop := ∀ i, c'.parents i = some i → c.parents i = some i

theorem SelfPres.refl (c : Chain) : SelfPres c c := fun _ h => h
theorem SelfPres.trans {a b c : Chain} (h1 : SelfPres a b) (h2 : SelfPres b c) : SelfPres a c :=
  fun i h => h1 i (h2 i h)
theorem SelfPres.of_eq {c c' : Chain} (h : c'.parents = c.parents) : SelfPres c c' :=
  fun i hi => by rw [← h]; exact hi
theorem Shrinks.selfPres {c c' : Chain} (h : Shrinks c c') : SelfPres c c' := by
  intro i hi
  rcases h.2.2 i with h | h
  · rw [← h]; exact hi
  · rw [h] at hi; simp at hi
theorem Shrinks.sub {c c' : Chain} (h : Shrinks c c') {i : Nat} (hi : c'.has i = true) :
    c.has i = true := by
  rw [← parents_has] at *
  rcases h.2.2 i with h | h
  · rw [← h]; exact hi
  · rw [h] at hi; simp at hi

/-- The chain has a root: a link for its own label, and only the root is its own parent. -/
def Rooted (c : Chain) : Prop :=
  ∃ r, c.links c.label = some r ∧ ∀ i, c.parents i = some i → i = r

/-- Adjacent or equal: what a pair of linking qubits must be. -/
def Near (adj : Nat → Nat → Prop) (q p : Nat) : Prop := q = p ∨ adj q p

/-- fills change exactly by the changes of membership of two chains -/
def WD2 (c o : Chain) (w : Wt) (c' o' : Chain) (w' : Wt) : Prop :=
  ∀ q, w' q = w q + ind (c'.has q) - ind (c.has q) + ind (o'.has q) - ind (o.has q)

theorem size_del {c c' : Chain} {q : Nat} (hq : c.has q = true) (hlt : q < nq)
    (hp : c'.parents = upd c.parents q none) : c'.size nq < c.size nq := by
  have := cnt_change (p := c.has) (p' := c'.has) (k := q) hlt (by
    intro i hi
    rw [← parents_has, ← parents_has (c := c), hp]; simp [hi])
  have h1 : c'.has q = false := by rw [← parents_has, hp]; simp
  rw [hq, h1] at this
  simp at this
  unfold size; omega

theorem size_ins {c c' : Chain} {q p : Nat} (hq : c.has q = false) (hlt : q < nq)
    (hp : c'.parents = upd c.parents q (some p)) : c'.size nq = c.size nq + 1 := by
  have := cnt_change (p := c.has) (p' := c'.has) (k := q) hlt (by
    intro i hi
    rw [← parents_has, ← parents_has (c := c), hp]; simp [hi])
  have h1 : c'.has q = true := by rw [← parents_has, hp]; simp
  rw [hq, h1] at this
  simp at this
  unfold size; omega

theorem stealLoop_spec (adj_symm : ∀ a b, adj a b → adj b a) (acc : Nat → Bool) (cs : Nat)
    (fuel : Nat) : ∀ {c o : Chain} {w : Wt} {q p : Nat},
    CInv nv nq adj zero c → CInv nv nq adj zero o → c.has q = true → o.has p = true →
    Near adj q p → o.size nq < fuel →
    ∃ c' o' w' q' p', stealLoop nq acc cs fuel c o w q p = .ok (c', o', w', q', p') ∧
      CInv nv nq adj zero c' ∧ CInv nv nq adj zero o' ∧ c'.has q' = true ∧ o'.has p' = true ∧
      Near adj q' p' ∧ c'.label = c.label ∧ o'.label = o.label ∧ c'.links = c.links ∧
      o'.links = o.links ∧ SelfPres c c' ∧ Shrinks o o' ∧ WD2 c o w c' o' w' ∧
      (∀ i, c'.has i = true → c.has i = true ∨ (o.has i = true ∧ acc i = true ∧ o'.has i = false)) ∧
      (cs ≠ 0 → c'.size nq ≤ max (c.size nq) cs) := by
  induction fuel with
  | zero => intro c o w q p _ _ _ _ _ h; omega
  | succ fuel ih =>
    intro c o w q p hc ho hq hp hnear hsz
    by_cases hcond : (cs = 0 ∨ c.size nq < cs) ∧ acc p = true
    swap
    · exact ⟨c, o, w, q, p, by simp [stealLoop, hcond], hc, ho, hq, hp, hnear, rfl, rfl, rfl, rfl,
        SelfPres.refl c, Shrinks.refl o, fun x => by omega, fun i hi => Or.inl hi,
        fun _ => Nat.le_max_left _ _⟩
    have hacc := hcond.2
    obtain ⟨e, he⟩ := has_iff.1 hp
    by_cases hr : e.refs = 0
    swap
    · refine ⟨c, o, w, q, p, ?_, hc, ho, hq, hp, hnear, rfl, rfl, rfl, rfl,
        SelfPres.refl c, Shrinks.refl o, fun x => by omega, fun i hi => Or.inl hi,
        fun _ => Nat.le_max_left _ _⟩
      simp [stealLoop, hcond, trimLeaf_pos he hr, bind, Except.bind]
    obtain ⟨o1, ht, ho1, hne, hadj, holab, holinks, hopar, hohp⟩ :=
      ho.trimLeaf_zero (w := w) he hr (le_refl _)
    have hosz := size_del hp (ho.dom p e he) hopar
    have hosh : Shrinks o o1 := ⟨holab, holinks, fun i => by
      rw [hopar]
      by_cases hi : i = p
      · subst hi; simp
      · simp [hi]⟩
    have hwdo : WD o w o1 (upd w p (w p - 1)) := WD.del hopar hp
    by_cases hcp : c.has p = true
    · by_cases hpq : p = q
      · subst hpq
        obtain ⟨c', o', w', q', p', hl, h1, h2, h3, h4, h5, h6, h7, h8, h9, h10, h11, h12, h13, h14⟩ :=
          ih (w := upd w p (w p - 1)) hc ho1 hcp hohp (Or.inr hadj) (by omega)
        refine ⟨c', o', w', q', p', ?_, h1, h2, h3, h4, h5, h6, h7.trans holab, h8, h9.trans holinks,
          h10, hosh.trans h11, ?_, ?_, ?_⟩
        · simp only [stealLoop, if_pos hcond, ht, bind, Except.bind, hne, if_false, hcp, if_true]
          simpa using hl
        · intro x; have := h12 x; have := hwdo x; omega
        · intro i hi
          rcases h13 i hi with h | h
          · exact Or.inl h
          · exact Or.inr ⟨hosh.sub h.1, h.2⟩
        · exact h14
      · obtain ⟨c1, hb1, hc1, hlab1, hlinks1, hhas1, hpar1⟩ := hc.bump (q := p) (d := 1) hcp
        have hex1 : ∀ i, (0:Int) ≤ (zero i + if i = p then 1 else 0) := by
          intro i; split <;> simp
        obtain ⟨c2, w2, s, hb2, hc2, hsh2, hwd2, _, hkeep⟩ :=
          hc1.trimBranch (w := upd w p (w p - 1)) (q := q) hex1 (by rw [hhas1]; exact hq)
        have hcp2 : c2.has p = true := hkeep p (by rw [hhas1]; exact hcp) (by simp)
        obtain ⟨c3, hb3, hc3, hlab3, hlinks3, hhas3, hpar3⟩ := hc2.bump (q := p) (d := -1) hcp2
        have hc3' : CInv nv nq adj zero c3 := hc3.congr (by intro i; split <;> simp)
        obtain ⟨c', o', w', q', p', hl, h1, h2, h3, h4, h5, h6, h7, h8, h9, h10, h11, h12, h13, h14⟩ :=
          ih (w := w2) hc3' ho1 (by rw [hhas3]; exact hcp2) hohp (Or.inr hadj) (by omega)
        refine ⟨c', o', w', q', p', ?_, h1, h2, h3, h4, h5, ?_, h7.trans holab, ?_, h9.trans holinks,
          ?_, hosh.trans h11, ?_, ?_, ?_⟩
        · simp only [stealLoop, if_pos hcond, ht, bind, Except.bind, hne, if_false, hcp, if_true,
            ne_eq, hpq, not_false_eq_true, hb1, hb2, hb3]
          exact hl
        · rw [h6, hlab3, hsh2.1, hlab1]
        · rw [h8, hlinks3, hsh2.2.1, hlinks1]
        · refine SelfPres.trans (SelfPres.of_eq (funext hpar1)) (SelfPres.trans hsh2.selfPres
            (SelfPres.trans (SelfPres.of_eq (funext hpar3)) h10))
        · intro x
          have a1 := h12 x; have a2 := hwdo x; have a3 := hwd2 x
          rw [hhas3] at a1; rw [hhas1] at a3
          omega
        · intro i hi
          rcases h13 i hi with h | h
          · left; rw [hhas3] at h; have := hsh2.sub h; rw [hhas1] at this; exact this
          · exact Or.inr ⟨hosh.sub h.1, h.2⟩
        · intro h0
          have b1 := h14 h0
          have b2 : c3.size nq ≤ c.size nq := cnt_mono (fun i _ hi => by
            rw [hhas3] at hi; have := hsh2.sub hi; rw [hhas1] at this; exact this)
          omega
    · have hcp' : c.has p = false := by simpa using hcp
      have hqp : q ≠ p := by intro h; rw [h] at hq; exact hcp hq
      have hpq : adj p q := by
        rcases hnear with h | h
        · exact absurd h hqp
        · exact adj_symm _ _ h
      obtain ⟨c1, ha, hc1, hlab1, hlinks1, hpar1, _, _⟩ :=
        hc.addLeaf (w := upd w p (w p - 1)) hcp' hq (ho.dom p e he) hpq rfl
      have hwd1 := WD.ins (w := upd w p (w p - 1)) hpar1 hcp'
      have hhasp : c1.has p = true := by rw [← parents_has, hpar1]; simp
      obtain ⟨c', o', w', q', p', hl, h1, h2, h3, h4, h5, h6, h7, h8, h9, h10, h11, h12, h13, h14⟩ :=
        ih (w := upd (upd w p (w p - 1)) p (upd w p (w p - 1) p + 1)) hc1 ho1 hhasp hohp
          (Or.inr hadj) (by omega)
      refine ⟨c', o', w', q', p', ?_, h1, h2, h3, h4, h5, h6.trans hlab1, h7.trans holab,
        h8.trans hlinks1, h9.trans holinks, ?_, hosh.trans h11, ?_, ?_, ?_⟩
      · simp only [stealLoop, if_pos hcond, ht, bind, Except.bind, hne, if_false, hcp', ha]
        exact hl
      · refine SelfPres.trans ?_ h10
        intro i hi
        rw [hpar1] at hi
        by_cases hip : i = p
        · subst hip; simp at hi; exact absurd hi hqp
        · simpa [hip] using hi
      · intro x; have := h12 x; have := hwdo x; have := hwd1 x; omega
      · intro i hi
        rcases h13 i hi with h | h
        · by_cases hip : i = p
          · subst hip
            refine Or.inr ⟨hp, hacc, ?_⟩
            by_contra hcon
            have := h11.sub (by simpa using hcon)
            rw [← parents_has, hopar] at this
            simp at this
          · left; rw [← parents_has, hpar1] at h; simpa [hip, parents_has] using h
        · exact Or.inr ⟨hosh.sub h.1, h.2⟩
      · intro h0
        have b1 := h14 h0
        have b2 := size_ins (nq := nq) hcp' (ho.dom p e he) hpar1
        rcases hcond.1 with h | h
        · exact absurd h h0
        · omega

/-- Effect of `steal` on a pair of linked chains. -/
theorem steal_spec (adj_symm : ∀ a b, adj a b → adj b a) (acc : Nat → Bool) (cs : Nat)
    {w : Wt} {q p : Nat} (hc : CInv nv nq adj zero c) (ho : CInv nv nq adj zero o)
    (hcl : c.links o.label = some q) (hol : o.links c.label = some p) (hnear : Near adj q p) :
    ∃ c' o' w' q' p', steal nq acc cs c o w = .ok (c', o', w') ∧
      CInv nv nq adj zero c' ∧ CInv nv nq adj zero o' ∧ Near adj q' p' ∧
      c'.label = c.label ∧ o'.label = o.label ∧ c'.links = upd c.links o.label (some q') ∧
      o'.links = upd o.links c.label (some p') ∧ SelfPres c c' ∧ SelfPres o o' ∧
      WD2 c o w c' o' w' ∧
      (∀ i, c'.has i = true → c.has i = true ∨ (o.has i = true ∧ acc i = true ∧ o'.has i = false)) ∧
      (∀ i, o'.has i = true → o.has i = true) ∧
      (cs ≠ 0 → c'.size nq ≤ max (c.size nq) cs) := by
  obtain ⟨c1, hd1, hc1, hlab1, hlinks1, hpar1⟩ := hc.dropLink hcl
  obtain ⟨o1, hd2, ho1, hlab2, hlinks2, hpar2⟩ := ho.dropLink hol
  have hhas1 := has_congr hpar1
  have hhas2 := has_congr hpar2
  obtain ⟨c2, o2, w2, q', p', hl, h1, h2, h3, h4, h5, h6, h7, h8, h9, h10, h11, h12, h13, h14⟩ :=
    stealLoop_spec adj_symm acc cs (nq + 1) (w := w) hc1 ho1
      (by rw [hhas1]; exact hc.lin _ _ hcl) (by rw [hhas2]; exact ho.lin _ _ hol) hnear
      (by have := size_le (nq := nq) o1; omega)
  have e1 : o2.label = o.label := h7.trans hlab2
  have e2 : c2.label = c.label := h6.trans hlab1
  obtain ⟨c3, hs1, hc3, hlab3, hlinks3, hpar3⟩ := h1.setLink (x := o2.label) (q := q') h2.lab
    (by rw [h8, hlinks1, e1]; simp) h3
  obtain ⟨o3, hs2, ho3, hlab4, hlinks4, hpar4⟩ := h2.setLink (x := c2.label) (q := p') h1.lab
    (by rw [h9, hlinks2, e2]; simp) h4
  have hhas3 := has_congr hpar3
  have hhas4 := has_congr hpar4
  have upd_upd : ∀ (f : Nat → Option Nat) k a b, upd (upd f k a) k b = upd f k b := by
    intro f k a b; funext i; by_cases hi : i = k <;> simp [upd, hi]
  refine ⟨c3, o3, w2, q', p', ?_, hc3, ho3, h5, hlab3.trans e2, hlab4.trans e1, ?_, ?_, ?_, ?_, ?_,
    ?_, ?_, ?_⟩
  · simp only [steal, hd1, hd2, bind, Except.bind, hl, hs1, hs2]
  · rw [hlinks3, h8, hlinks1, e1, upd_upd]
  · rw [hlinks4, h9, hlinks2, e2, upd_upd]
  · exact (SelfPres.of_eq hpar1).trans (h10.trans (SelfPres.of_eq hpar3))
  · exact (SelfPres.of_eq hpar2).trans (h11.selfPres.trans (SelfPres.of_eq hpar4))
  · intro x
    have := h12 x
    rw [hhas1, hhas2] at this
    rw [hhas3, hhas4]; exact this
  · intro i hi
    rw [hhas3] at hi
    have := h13 i hi
    rw [hhas1, hhas2] at this; rw [hhas4]; exact this
  · intro i hi
    rw [hhas4] at hi
    have := h11.sub hi
    rw [hhas2] at this; exact this
  · intro h0
    have b := h14 h0
    have e3 : c3.size nq = c2.size nq := cnt_congr (fun i _ => hhas3 i)
    have e4 : c1.size nq = c.size nq := cnt_congr (fun i _ => hhas1 i)
    omega

/-! ### link_path -/

/-- `par` leads from `q` to a member of `T` in `n` steps along target edges through qubits
satisfying `P`, none of the intermediate ones in `T`; a member of `T` has no parent. -/
inductive PathTo (adj : Nat → Nat → Prop) (P T : Nat → Prop) (par : Nat → Option Nat) :
    Nat → Nat → Prop
  | base {q} : T q → par q = none → PathTo adj P T par 0 q
  | step {n q p} : ¬ T q → P q → par q = some p → adj q p → PathTo adj P T par n p →
      PathTo adj P T par (n+1) q

theorem PathTo.unique {adj P T par} {n m q : Nat} (h1 : PathTo adj P T par n q)
    (h2 : PathTo adj P T par m q) : n = m := by
  induction h1 generalizing m with
  | base hT hn =>
    cases h2 with
    | base => rfl
    | step hnT => exact absurd hT hnT
  | step hnT _ hp _ _ ih =>
    cases h2 with
    | base hT => exact absurd hT hnT
    | step _ _ hp' _ h' =>
      rw [hp] at hp'; cases hp'
      rw [ih h']

theorem PathTo.zero_T {adj P T par} {q : Nat} (h : PathTo adj P T par 0 q) : T q := by
  cases h; assumption

theorem PathTo.succ_notT {adj P T par} {n q : Nat} (h : PathTo adj P T par (n+1) q) : ¬ T q := by
  cases h; assumption

/-- all qubits are referenced -/
def Tight (c : Chain) : Prop := ∀ q e, c.data q = some e → 1 ≤ e.refs

/-- `c` extends `c0`: same links, all old qubits still there with their parents -/
def Extends (c0 c : Chain) : Prop :=
  c.label = c0.label ∧ c.links = c0.links ∧ ∀ i p, c0.parents i = some p → c.parents i = some p

theorem Extends.refl (c : Chain) : Extends c c := ⟨rfl, rfl, fun _ _ h => h⟩

theorem Extends.refs {c0 c : Chain} (h0 : CInv nv nq adj zero c0) (h : CInv nv nq adj zero c)
    (hx : Extends c0 c) {q : Nat} {e0 e : Entry} (he0 : c0.data q = some e0)
    (he : c.data q = some e) : e0.refs ≤ e.refs := by
  rw [h0.ref q e0 he0, h.ref q e he]
  have h1 : linkCnt nv c0 q = linkCnt nv c q := by unfold linkCnt; rw [hx.2.1]
  have h2 : parCnt nq c0 q ≤ parCnt nq c q := by
    apply cnt_mono
    intro i _ hi
    obtain ⟨e', he', hp⟩ := isPar_iff.1 hi
    have := hx.2.2 i e'.parent (by simp [parents, he'])
    simp only [parents, Option.map_eq_some_iff] at this
    obtain ⟨a, ha, hb⟩ := this
    exact isPar_iff.2 ⟨a, ha, by rw [hb, hp]⟩
  rw [h1]; simp only [zero]; omega

/-- tightness except at one qubit -/
def TightBut (c : Chain) (q : Nat) : Prop := ∀ i e, c.data i = some e → i ≠ q → 1 ≤ e.refs

/-- Trimming a fresh branch keeps the old part, and restores tightness. -/
theorem trimBranchLoop_fresh {c0 : Chain} (h0 : CInv nv nq adj zero c0) (ht0 : Tight c0)
    (R : Nat → Prop) (fuel : Nat) : ∀ {c : Chain} {w : Wt} {q : Nat},
    CInv nv nq adj zero c → Extends c0 c → TightBut c q → c.has q = true →
    (∀ i, c.has i = true → c0.has i = false → R i) → c.size nq < fuel →
    ∃ c' w' p, Chain.trimBranchLoop fuel c w q = .ok (c', w', p) ∧ CInv nv nq adj zero c' ∧
      Extends c0 c' ∧ Tight c' ∧ Shrinks c c' ∧ WD c w c' w' ∧
      (∀ i, c.has i = true → ¬ R i → c'.has i = true) := by
  induction fuel with
  | zero => intro c w q _ _ _ _ _ h; omega
  | succ fuel ih =>
    intro c w q h hx htb hq hR hsz
    obtain ⟨e, he⟩ := has_iff.1 hq
    by_cases hr : e.refs = 0
    · obtain ⟨c1, ht, hinv, hne, _, hlab, hlinks, hpar, hhp⟩ :=
        h.trimLeaf_zero (w := w) he hr (le_refl _)
      have hsize := size_del hq (h.dom q e he) hpar
      have hq0 : c0.has q = false := by
        by_contra hc
        obtain ⟨e0, he0⟩ := has_iff.1 (by simpa using hc : c0.has q = true)
        have := hx.refs h0 h he0 he
        have := ht0 q e0 he0
        omega
      have hRq := hR q hq hq0
      have hx1 : Extends c0 c1 := by
        refine ⟨hlab.trans hx.1, hlinks.trans hx.2.1, fun i p hip => ?_⟩
        rw [hpar]
        have : i ≠ q := by
          intro hc; subst hc
          have : c0.has i = true := by rw [← parents_has, hip]; rfl
          rw [hq0] at this; simp at this
        simp [this]; exact hx.2.2 i p hip
      have htb1 : TightBut c1 e.parent := by
        intro i e1 he1 hie
        have hiq : i ≠ q := by
          intro hc; subst hc
          have : c1.parents i = none := by rw [hpar]; simp
          simp [parents, he1] at this
        -- refs of i did not change
        have hci : c.has i = true := by
          rw [← parents_has]
          have : c1.parents i = c.parents i := by rw [hpar]; simp [hiq]
          rw [← this]; simp [parents, he1]
        obtain ⟨e2, he2⟩ := has_iff.1 hci
        have h2 := htb i e2 he2 hiq
        have r1 := hinv.ref i e1 he1
        have r2 := h.ref i e2 he2
        have l1 : linkCnt nv c1 i = linkCnt nv c i := by unfold linkCnt; rw [hlinks]
        have l2 : parCnt nq c1 i = parCnt nq c i := by
          apply cnt_congr
          intro j _
          by_cases hj : j = q
          · subst hj
            have hn : c1.data j = none := by
              have : c1.parents j = none := by rw [hpar]; simp
              simpa [parents] using this
            have : ¬ e.parent = i := fun h => hie h.symm
            simp [isPar, hn, he, this]
          · have hp1 : c1.parents j = c.parents j := by rw [hpar]; simp [hj]
            simp only [parents] at hp1
            unfold isPar
            cases hd : c.data j <;> cases hd' : c1.data j <;> simp_all
        omega
      obtain ⟨c', w', p, hl, hi', hx', ht', hsh, hwd, hkeep⟩ :=
        ih (w := upd w q (w q - 1)) hinv hx1 htb1 hhp (by
          intro i hi hi0
          apply hR i _ hi0
          rw [← parents_has] at *
          rw [hpar] at hi
          by_cases hiq : i = q
          · subst hiq; simp at hi
          · simpa [hiq] using hi) (by omega)
      refine ⟨c', w', p, ?_, hi', hx', ht', ?_, ?_, ?_⟩
      · simp only [Chain.trimBranchLoop, ht, bind, Except.bind, hne, if_false]
        exact hl
      · refine Shrinks.trans ⟨hlab, hlinks, fun i => ?_⟩ hsh
        rw [hpar]
        by_cases hi : i = q
        · subst hi; simp
        · simp [hi]
      · exact (WD.del hpar hq).trans hwd
      · intro i hi hnR
        apply hkeep i _ hnR
        have : i ≠ q := by intro hc; subst hc; exact hnR hRq
        rw [← parents_has, hpar]; simp [this, parents_has, hi]
    · refine ⟨c, w, q, ?_, h, hx, ?_, Shrinks.refl c, WD.refl c w, fun i hi _ => hi⟩
      · simp [Chain.trimBranchLoop, trimLeaf_pos he hr, bind, Except.bind]
      · intro i e' he'
        by_cases hiq : i = q
        · subst hiq
          rw [he] at he'; cases he'
          have := h.ref i e he
          have : 0 ≤ e.refs := by rw [this]; simp only [zero]; omega
          omega
        · exact htb i e' he' hiq

/-- The loop of `link_path` along a path of `n` further steps. -/
theorem linkPathLoop_spec (adj_symm : ∀ a b, adj a b → adj b a) {P : Nat → Prop}
    (hP : ∀ q, P q → q < nq)
    {par : Nat → Option Nat} {c0 : Chain} (h0 : CInv nv nq adj zero c0) (ht0 : Tight c0)
    (fuel : Nat) : ∀ {c : Chain} {w : Wt} {q p n : Nat},
    CInv nv nq adj zero c → Extends c0 c → TightBut c q → c.has q = true →
    (∀ i, c.has i = true → c0.has i = false →
      ∃ m, n < m ∧ PathTo adj P (fun x => o.has x = true) par m i) →
    PathTo adj P (fun x => o.has x = true) par n p → adj q p → n < fuel →
    ∃ c' w' q' p', linkPathLoop nq par fuel c o w q p = .ok (c', w', q', p') ∧
      CInv nv nq adj zero c' ∧ TightBut c' q' ∧ c'.has q' = true ∧ o.has p' = true ∧
      adj q' p' ∧ c'.label = c0.label ∧ c'.links = c0.links ∧ Extends c0 c' ∧ SelfPres c c' ∧
      WD c w c' w' ∧ (∀ i, c'.has i = true → c.has i = true ∨ P i) := by
  induction fuel with
  | zero => intro c w q p n _ _ _ _ _ _ _ h; omega
  | succ fuel ih =>
    intro c w q p n h hx htb hq hnew hpath hadj hn
    by_cases hop : o.has p = true
    · exact ⟨c, w, q, p, by simp [linkPathLoop, hop], h, htb, hq, hop, hadj, hx.1, hx.2.1, hx,
        SelfPres.refl c, WD.refl c w, fun i hi => Or.inl hi⟩
    cases hpath with
    | base hT => exact absurd hT hop
    | @step n _ p' hnT hPp hpar hadj' hrest =>
    have hop' : o.has p = false := by simpa using hop
    by_cases hcp : c.has p = true
    · -- the path re-enters the chain
      have hNR : ¬ (∃ m, n+1 < m ∧ PathTo adj P (fun x => o.has x = true) par m p) := by
        rintro ⟨m, hm, hp'⟩
        have := hp'.unique (PathTo.step hnT hPp hpar hadj' hrest)
        omega
      obtain ⟨c1, w1, s, hl, h1, hx1, ht1, hsh1, hwd1, hkeep⟩ :=
        trimBranchLoop_fresh (w := w) h0 ht0
          (fun i => ∃ m, n+1 < m ∧ PathTo adj P (fun x => o.has x = true) par m i) (nq + 1)
          h hx htb hq hnew (by have := size_le (nq := nq) c; omega)
      have hcp1 := hkeep p hcp hNR
      obtain ⟨c', w', q', p'', hl', r1, r2, r3, r4, r5, r6, r7, r8, r9, r10, r11⟩ :=
        ih (w := w1) (q := p) (p := p') (n := n) h1 hx1
          (fun i e he _ => ht1 i e he) hcp1 (by
            intro i hi hi0
            obtain ⟨m, hm, hpm⟩ := hnew i (hsh1.sub hi) hi0
            exact ⟨m, by omega, hpm⟩) hrest hadj' (by omega)
      refine ⟨c', w', q', p'', ?_, r1, r2, r3, r4, r5, r6, r7, r8, hsh1.selfPres.trans r9,
        hwd1.trans r10, ?_⟩
      · simp only [linkPathLoop, hop', hcp, if_true, bind, Except.bind, trimBranch, hl, hpar, pure,
          Except.pure]
        exact hl'
      · intro i hi
        rcases r11 i hi with h | h
        · exact Or.inl (hsh1.sub h)
        · exact Or.inr h
    · have hcp' : c.has p = false := by simpa using hcp
      have hqp : q ≠ p := by intro hc; rw [hc] at hq; exact hcp hq
      obtain ⟨c1, ha, hc1, hlab1, hlinks1, hpar1, hmono, hrefq⟩ :=
        h.addLeaf (w := w) hcp' hq (hP p hPp) (adj_symm _ _ hadj) rfl
      have hp0 : c0.has p = false := by
        by_contra hc
        have hc' : c0.has p = true := by simpa using hc
        rw [← parents_has, Option.isSome_iff_exists] at hc'
        obtain ⟨a, ha'⟩ := hc'
        have := hx.2.2 p a ha'
        have h2 : c.has p = true := by rw [← parents_has, this]; rfl
        exact hcp h2
      have hx1 : Extends c0 c1 := by
        refine ⟨hlab1.trans hx.1, hlinks1.trans hx.2.1, fun i a hia => ?_⟩
        rw [hpar1]
        have : i ≠ p := by
          intro hc; subst hc
          have : c0.has i = true := by rw [← parents_has, hia]; rfl
          rw [hp0] at this; simp at this
        simp [this]; exact hx.2.2 i a hia
      have htb1 : TightBut c1 p := by
        intro i e1 he1 hip
        by_cases hiq : i = q
        · subst hiq
          obtain ⟨e2, he2, hge⟩ := hrefq
          rw [he1] at he2; cases he2
          simpa using hge
        · have hci : c.has i = true := by
            rw [← parents_has]
            have : c1.parents i = c.parents i := by rw [hpar1]; simp [hip]
            rw [← this]; simp [parents, he1]
          obtain ⟨e2, he2⟩ := has_iff.1 hci
          obtain ⟨e3, he3, hle⟩ := hmono i e2 he2
          rw [he1] at he3; cases he3
          have := htb i e2 he2 hiq
          omega
      have hhasp : c1.has p = true := by rw [← parents_has, hpar1]; simp
      obtain ⟨c', w', q', p'', hl', r1, r2, r3, r4, r5, r6, r7, r8, r9, r10, r11⟩ :=
        ih (w := upd w p (w p + 1)) (q := p) (p := p') (n := n) hc1 hx1 htb1 hhasp (by
            intro i hi hi0
            by_cases hip : i = p
            · subst hip
              exact ⟨n+1, by omega, PathTo.step hnT hPp hpar hadj' hrest⟩
            · obtain ⟨m, hm, hpm⟩ := hnew i (by
                rw [← parents_has, hpar1] at hi
                simpa [hip, parents_has] using hi) hi0
              exact ⟨m, by omega, hpm⟩) hrest hadj' (by omega)
      refine ⟨c', w', q', p'', ?_, r1, r2, r3, r4, r5, r6, r7, r8, ?_, ?_, ?_⟩
      · simp only [linkPathLoop, hop', hcp', bind, Except.bind, ha, hpar]
        exact hl'
      · refine SelfPres.trans ?_ r9
        intro i hi
        rw [hpar1] at hi
        by_cases hip : i = p
        · subst hip; simp at hi; exact absurd hi hqp
        · simpa [hip] using hi
      · exact (WD.ins hpar1 hcp').trans r10
      · intro i hi
        rcases r11 i hi with h | h
        · by_cases hip : i = p
          · subst hip; exact Or.inr hPp
          · left; rw [← parents_has, hpar1] at h; simpa [hip, parents_has] using h
        · exact Or.inr h

/-- Effect of `link_path`: the chain `c` grows along the path and the two chains get linked. -/
theorem linkPath_spec (adj_symm : ∀ a b, adj a b → adj b a) {P : Nat → Prop}
    (hP : ∀ q, P q → q < nq) {par : Nat → Option Nat} {w : Wt} {q n : Nat}
    (hc : CInv nv nq adj zero c) (ho : CInv nv nq adj zero o) (ht : Tight c)
    (hcl : c.links o.label = none) (hol : o.links c.label = none) (hq : c.has q = true)
    (hpath : PathTo adj P (fun x => o.has x = true) par n q) (hn : n ≤ nq) :
    ∃ c' o' w' q' p', linkPath nq c o w q par = .ok (c', o', w') ∧
      CInv nv nq adj zero c' ∧ CInv nv nq adj zero o' ∧ Near adj q' p' ∧ Tight c' ∧
      c'.label = c.label ∧ o'.label = o.label ∧ c'.links = upd c.links o.label (some q') ∧
      o'.links = upd o.links c.label (some p') ∧ SelfPres c c' ∧ o'.parents = o.parents ∧
      WD c w c' w' ∧ (∀ i, c.has i = true → c'.has i = true) ∧
      (∀ i, c'.has i = true → c.has i = true ∨ P i) := by
  have key : ∃ c1 w1 q1 p1, (match par q with
        | none => (pure (c, w, q, q) : M (Chain × Wt × Nat × Nat))
        | some p => linkPathLoop nq par (nq + 1) c o w q p) = .ok (c1, w1, q1, p1) ∧
      CInv nv nq adj zero c1 ∧ TightBut c1 q1 ∧ c1.has q1 = true ∧ o.has p1 = true ∧
      Near adj q1 p1 ∧ Extends c c1 ∧ SelfPres c c1 ∧ WD c w c1 w1 ∧
      (∀ i, c1.has i = true → c.has i = true ∨ P i) := by
    cases hpath with
    | base hT hpar =>
      exact ⟨c, w, q, q, by rw [hpar]; rfl, hc, fun i e he _ => ht i e he, hq, hT, Or.inl rfl,
        Extends.refl c, SelfPres.refl c, WD.refl c w, fun i hi => Or.inl hi⟩
    | @step n _ p hnT hPq hpar hadj hrest =>
      obtain ⟨c', w', q', p', hl, r1, r2, r3, r4, r5, _, _, r8, r9, r10, r11⟩ :=
        linkPathLoop_spec (o := o) (w := w) adj_symm hP hc ht (nq + 1) hc (Extends.refl c)
          (fun i e he _ => ht i e he) hq (by
            intro i hi hi0; rw [hi] at hi0; simp at hi0) hrest hadj (by omega)
      exact ⟨c', w', q', p', by rw [hpar]; exact hl, r1, r2, r3, r4, Or.inr r5, r8, r9, r10, r11⟩
  obtain ⟨c1, w1, q1, p1, hl, hc1, htb1, hq1, hp1, hnear, hx, hsp, hwd, hsub⟩ := key
  obtain ⟨c2, hs1, hc2, hlab2, hlinks2, hpar2⟩ := hc1.setLink (x := o.label) (q := q1) ho.lab
    (by rw [hx.2.1]; exact hcl) hq1
  obtain ⟨o2, hs2, ho2, hlab3, hlinks3, hpar3⟩ := ho.setLink (x := c1.label) (q := p1) hc1.lab
    (by rw [hx.1]; exact hol) hp1
  have hhas2 := has_congr hpar2
  refine ⟨c2, o2, w1, q1, p1, ?_, hc2, ho2, hnear, ?_, hlab2.trans hx.1, hlab3, ?_, ?_,
    hsp.trans (SelfPres.of_eq hpar2), hpar3, ?_, ?_, ?_⟩
  · cases hpq : par q with
    | none =>
      rw [hpq] at hl
      simp only [pure, Except.pure, Except.ok.injEq, Prod.mk.injEq] at hl
      obtain ⟨rfl, rfl, rfl, rfl⟩ := hl
      simp only [linkPath, hpq, bind, Except.bind, pure, Except.pure, hs1, hs2]
    | some p0 =>
      rw [hpq] at hl
      simp only at hl
      simp only [linkPath, hpq, bind, Except.bind, pure, Except.pure, hl, hs1, hs2]
  · -- tightness: the new link refers to q1
    intro i e he
    have href := hc2.ref i e he
    by_cases hi : i = q1
    · subst hi
      have : 0 < linkCnt nv c2 i := by
        apply cnt_pos (k := o.label) ho.lab
        rw [hlinks2]; simp
      rw [href]; simp only [zero]; omega
    · have hci : c1.has i = true := by rw [← hhas2]; exact has_iff.2 ⟨e, he⟩
      obtain ⟨e1, he1⟩ := has_iff.1 hci
      have h1 := htb1 i e1 he1 hi
      have href1 := hc1.ref i e1 he1
      have l1 : linkCnt nv c2 i = linkCnt nv c1 i := by
        unfold linkCnt
        apply cnt_congr
        intro x _
        rw [hlinks2]
        by_cases hx' : x = o.label
        · subst hx'
          have hn : c1.links o.label = none := by rw [hx.2.1]; exact hcl
          have : ¬ q1 = i := fun h => hi h.symm
          simp [hn, this]
        · simp [hx']
      have l2 : parCnt nq c2 i = parCnt nq c1 i :=
        cnt_congr (fun j _ => isPar_congr (fun k => congrFun hpar2 k) i j)
      omega
  · rw [hlinks2, hx.2.1]
  · rw [hlinks3, hx.1]
  · intro x; have := hwd x; rw [hhas2]; exact this
  · intro i hi
    rw [hhas2]
    rw [← parents_has, Option.isSome_iff_exists] at hi
    obtain ⟨a, ha⟩ := hi
    rw [← parents_has, hx.2.2 i a ha]; rfl
  · intro i hi; rw [hhas2] at hi; exact hsub i hi

end Chain
end MM
