import Verif.Core.Emb
import Verif.Core.ChainOps
import Verif.Core.HeapInv

/-! Invariant of an embedding and its preservation by the operations of embedding.hpp. -/

namespace MM

open Chain (CInv zero Near SelfPres Tight WD WD2 PathTo)

/-- Two qubits are adjacent in the target graph: one is in the neighbour list of the other. -/
def Prob.adj (P : Prob) (a b : Nat) : Prop := (a < P.Q ∧ b ∈ P.qn a) ∨ (b < P.Q ∧ a ∈ P.qn b)

theorem Prob.adj_symm (P : Prob) (a b : Nat) (h : P.adj a b) : P.adj b a := h.symm

/-- What the caller of the search guarantees about the problem (established by
`parameter_processor`, find_embedding.hpp:29-130). -/
structure Prob.WF (P : Prob) : Prop where
  nq_pos : 0 < P.nq
  qn_lt : ∀ q p, q < P.Q → p ∈ P.qn q → p < P.nq
  vn_lt : ∀ u v, u < P.nv → v ∈ P.vn u → v < P.N
  vn_irr : ∀ u, u < P.nv → u ∉ P.vn u
  vn_nodup : ∀ u, u < P.nv → (P.vn u).Nodup
  vn_symm : ∀ u v, u < P.nv → v < P.nv → v ∈ P.vn u → u ∈ P.vn v
  fixed_ne : ∀ v, P.nv ≤ v → v < P.N → P.fixedChain v ≠ []
  fixed_lt : ∀ v q, P.nv ≤ v → v < P.N → q ∈ P.fixedChain v → q < P.Q
  fixed_ge : ∀ v q, P.nv ≤ v → v < P.N → q ∈ P.fixedChain v → P.nq ≤ q
  nf_le : P.nf ≤ P.nr

/-- A family of qubit sets, one for each free variable, that the search never leaves. -/
structure Dom (P : Prob) (R : Nat → Nat → Prop) : Prop where
  lt : ∀ v q, v < P.nv → R v q → q < P.nq
  steal : ∀ a b q, a < P.nv → b < P.nv → b ∈ P.vn a → R b q → P.accepts a q = true → R a q
  root : ∀ u q, u < P.nv → q < P.nq → P.accepts u q = true → R u q
  search : ∀ u v q, u < P.nv → v ∈ P.vn u → q < P.nq →
    (P.accepts u q = true ∨ P.accepts v q = true) → R u q

/-- The fills are exact. -/
def Emb.Exact (P : Prob) (E : Emb) : Prop :=
  ∀ q, E.w q = cnt (fun v => (E.chains v).has q) P.N

/-- The shape invariant of an embedding. -/
structure Emb.Shape (P : Prob) (R : Nat → Nat → Prop) (E : Emb) : Prop where
  cinv : ∀ v, v < P.N → CInv P.N P.Q P.adj zero (E.chains v)
  lab : ∀ v, v < P.N → (E.chains v).label = v
  sym : ∀ u v q, u < P.N → v < P.N → u ≠ v → (E.chains u).links v = some q →
    ∃ p, (E.chains v).links u = some p ∧ Near P.adj q p
  nbr : ∀ u v q, u < P.N → v < P.nv → u ≠ v → (E.chains u).links v = some q → u ∈ P.vn v
  root : ∀ v r, v < P.N → (E.chains v).links v = some r →
    ∀ i, (E.chains v).parents i = some i → i = r
  dom : ∀ v q, v < P.nv → (E.chains v).has q = true → R v q
  fixd : ∀ v q, P.nv ≤ v → v < P.N → ((E.chains v).has q = true ↔ q ∈ P.fixedChain v)

/-- The invariant of an embedding: shape and exact fills. -/
structure EInv (P : Prob) (R : Nat → Nat → Prop) (E : Emb) : Prop extends Emb.Shape P R E where
  exact : E.Exact P

namespace Emb

/-- `x` stores a link for `y` -/
def L (E : Emb) (x y : Nat) : Bool := ((E.chains x).links y).isSome

/-- the chain of `v` is not empty -/
def NE (E : Emb) (v : Nat) : Prop := ∃ q, (E.chains v).has q = true

theorem L_iff {E : Emb} {x y : Nat} : E.L x y = true ↔ ∃ q, (E.chains x).links y = some q := by
  simp [L, Option.isSome_iff_exists]

theorem L_false {E : Emb} {x y : Nat} : E.L x y = false ↔ (E.chains x).links y = none := by
  simp [L]

end Emb

variable {P : Prob} {R : Nat → Nat → Prop} {E : Emb}

theorem EInv.size_iff (h : EInv P R E) {v : Nat} (hv : v < P.N) :
    E.chainsize P v ≠ 0 ↔ E.NE v := by
  constructor
  · intro hs
    obtain ⟨q, _, hq⟩ := cnt_exists (Nat.pos_of_ne_zero hs)
    exact ⟨q, hq⟩
  · rintro ⟨q, hq⟩
    have := cnt_pos ((h.cinv v hv).has_lt hq) hq
    unfold Emb.chainsize Chain.size; omega

theorem EInv.L_symm (h : EInv P R E) {u v : Nat} (hu : u < P.N) (hv : v < P.N) :
    E.L u v = E.L v u := by
  by_cases huv : u = v
  · subst huv; rfl
  rw [Bool.eq_iff_iff, Emb.L_iff, Emb.L_iff]
  constructor
  · rintro ⟨q, hq⟩
    obtain ⟨p, hp, _⟩ := h.sym u v q hu hv huv hq
    exact ⟨p, hp⟩
  · rintro ⟨q, hq⟩
    obtain ⟨p, hp, _⟩ := h.sym v u q hv hu (Ne.symm huv) hq
    exact ⟨p, hp⟩

theorem EInv.L_ne (h : EInv P R E) {u v : Nat} (hu : u < P.N) (hl : E.L u v = true) : E.NE u := by
  obtain ⟨q, hq⟩ := Emb.L_iff.1 hl
  exact ⟨q, (h.cinv u hu).lin v q hq⟩

/-- The empty embedding. -/
theorem empty_chain_has (l q : Nat) : (Chain.empty l).has q = false := rfl

theorem Exact.two {E : Emb} (h : E.Exact P) {a b : Nat} {c o : Chain} {w' : Wt}
    (ha : a < P.N) (hb : b < P.N) (hab : a ≠ b)
    (hw : WD2 (E.chains a) (E.chains b) E.w c o w') {fr : Frozen} :
    Emb.Exact P { chains := upd (upd E.chains a c) b o, w := w', fr := fr } := by
  intro q
  have h1 := cnt_change (p := fun v => (E.chains v).has q)
    (p' := fun v => (upd E.chains a c v).has q) (k := a) ha (fun i hi => by simp [hi])
  have h2 := cnt_change (p := fun v => (upd E.chains a c v).has q)
    (p' := fun v => (upd (upd E.chains a c) b o v).has q) (k := b) hb (fun i hi => by simp [hi])
  have h3 := hw q
  have h4 := h q
  simp only [upd_same, upd_ne _ _ (Ne.symm hab)] at h1 h2
  dsimp only
  omega

theorem Exact.one {E : Emb} (h : E.Exact P) {a : Nat} {c : Chain} {w' : Wt}
    (ha : a < P.N) (hw : WD (E.chains a) E.w c w') {fr : Frozen} :
    Emb.Exact P { chains := upd E.chains a c, w := w', fr := fr } := by
  intro q
  have h1 := cnt_change (p := fun v => (E.chains v).has q)
    (p' := fun v => (upd E.chains a c v).has q) (k := a) ha (fun i hi => by simp [hi])
  have h3 := hw q
  have h4 := h q
  simp only [upd_same] at h1
  dsimp only
  omega

/-- Replacing two chains by versions that are linked to each other. -/
theorem EInv.link2 (h : EInv P R E) {a b : Nat} {c o : Chain} {w' : Wt} {q p : Nat}
    (ha : a < P.N) (hb : b < P.N) (hab : a ≠ b)
    (hc : CInv P.N P.Q P.adj zero c) (ho : CInv P.N P.Q P.adj zero o)
    (hcl : c.label = a) (hol : o.label = b)
    (hcL : c.links = upd (E.chains a).links b (some q))
    (hoL : o.links = upd (E.chains b).links a (some p)) (hnear : Near P.adj q p)
    (hcs : SelfPres (E.chains a) c) (hos : SelfPres (E.chains b) o)
    (hna : a < P.nv → b ∈ P.vn a) (hnb : b < P.nv → a ∈ P.vn b)
    (hdc : ∀ i, a < P.nv → c.has i = true → R a i)
    (hdo : ∀ i, b < P.nv → o.has i = true → R b i)
    (hfc : P.nv ≤ a → ∀ i, c.has i = (E.chains a).has i)
    (hfo : P.nv ≤ b → ∀ i, o.has i = (E.chains b).has i)
    (hw : WD2 (E.chains a) (E.chains b) E.w c o w') {fr : Frozen} :
    EInv P R { chains := upd (upd E.chains a c) b o, w := w', fr := fr } where
  exact := Exact.two h.exact ha hb hab hw
  cinv := by
    intro v hv
    dsimp only
    by_cases hvb : v = b
    · subst hvb; simpa using ho
    · by_cases hva : v = a
      · subst hva; simpa [hvb] using hc
      · simpa [hva, hvb] using h.cinv v hv
  lab := by
    intro v hv
    dsimp only
    by_cases hvb : v = b
    · subst hvb; simpa using hol
    · by_cases hva : v = a
      · subst hva; simpa [hvb] using hcl
      · simpa [hva, hvb] using h.lab v hv
  sym := by
    intro u v x hu hv huv hl
    dsimp only at *
    by_cases hub : u = b
    · subst hub
      by_cases hva : v = a
      · subst hva
        simp only [upd_same, hoL, Option.some.injEq] at hl
        subst hl
        refine ⟨q, by simp [hab, hcL], ?_⟩
        rcases hnear with h | h
        · exact Or.inl h.symm
        · exact Or.inr (P.adj_symm _ _ h)
      · simp only [upd_same, hoL, ne_eq, hva, not_false_eq_true, upd_ne] at hl
        obtain ⟨y, hy, hn⟩ := h.sym u v x hu hv huv hl
        refine ⟨y, ?_, hn⟩
        simp [hva, Ne.symm huv, hy]
    · by_cases hua : u = a
      · subst hua
        by_cases hvb : v = b
        · subst hvb
          simp only [ne_eq, hub, not_false_eq_true, upd_ne, upd_same, hcL, Option.some.injEq] at hl
          subst hl
          exact ⟨p, by simp [hoL], hnear⟩
        · simp only [ne_eq, hub, not_false_eq_true, upd_ne, upd_same, hcL, hvb] at hl
          obtain ⟨y, hy, hn⟩ := h.sym u v x hu hv huv hl
          refine ⟨y, ?_, hn⟩
          simp [hvb, Ne.symm huv, hy]
      · simp only [ne_eq, hub, hua, not_false_eq_true, upd_ne] at hl
        obtain ⟨y, hy, hn⟩ := h.sym u v x hu hv huv hl
        refine ⟨y, ?_, hn⟩
        by_cases hvb : v = b
        · subst hvb; simp [hoL, hua, hy]
        · by_cases hva : v = a
          · subst hva; simp [hvb, hcL, hub, hy]
          · simp [hvb, hva, hy]
  nbr := by
    intro u v x hu hv huv hl
    dsimp only at *
    by_cases hub : u = b
    · subst hub
      by_cases hva : v = a
      · subst hva; exact hna hv
      · simp only [upd_same, hoL, ne_eq, hva, not_false_eq_true, upd_ne] at hl
        exact h.nbr u v x hu hv huv hl
    · by_cases hua : u = a
      · subst hua
        by_cases hvb : v = b
        · subst hvb; exact hnb hv
        · simp only [ne_eq, hub, not_false_eq_true, upd_ne, upd_same, hcL, hvb] at hl
          exact h.nbr u v x hu hv huv hl
      · simp only [ne_eq, hub, hua, not_false_eq_true, upd_ne] at hl
        exact h.nbr u v x hu hv huv hl
  root := by
    intro v r hv hl
    dsimp only at *
    by_cases hvb : v = b
    · subst hvb
      simp only [upd_same, hoL, ne_eq, Ne.symm hab, not_false_eq_true, upd_ne] at hl
      intro i hi
      simp only [upd_same] at hi
      exact h.root v r hv hl i (hos i hi)
    · by_cases hva : v = a
      · subst hva
        simp only [ne_eq, hvb, not_false_eq_true, upd_ne, upd_same, hcL] at hl
        intro i hi
        simp only [ne_eq, hvb, not_false_eq_true, upd_ne, upd_same] at hi
        exact h.root v r hv hl i (hcs i hi)
      · simp only [ne_eq, hvb, hva, not_false_eq_true, upd_ne] at hl ⊢
        exact h.root v r hv hl
  dom := by
    intro v x hv hx
    dsimp only at *
    by_cases hvb : v = b
    · subst hvb; simp only [upd_same] at hx; exact hdo x hv hx
    · by_cases hva : v = a
      · subst hva
        simp only [ne_eq, hvb, not_false_eq_true, upd_ne, upd_same] at hx
        exact hdc x hv hx
      · simp only [ne_eq, hvb, hva, not_false_eq_true, upd_ne] at hx
        exact h.dom v x hv hx
  fixd := by
    intro v x hv hvN
    dsimp only
    by_cases hvb : v = b
    · subst hvb; simp only [upd_same]; rw [hfo hv]; exact h.fixd v x hv hvN
    · by_cases hva : v = a
      · subst hva
        simp only [ne_eq, hvb, not_false_eq_true, upd_ne, upd_same]
        rw [hfc hv]; exact h.fixd v x hv hvN
      · simp only [ne_eq, hvb, hva, not_false_eq_true, upd_ne]
        exact h.fixd v x hv hvN

/-- The same pairs are linked and the same chains are non-empty. -/
structure SameView (E E' : Emb) : Prop where
  links : ∀ x y, E'.L x y = E.L x y
  ne : ∀ v, E'.NE v ↔ E.NE v

theorem SameView.refl (E : Emb) : SameView E E := ⟨fun _ _ => rfl, fun _ => Iff.rfl⟩
theorem SameView.trans {A B C : Emb} (h1 : SameView A B) (h2 : SameView B C) : SameView A C :=
  ⟨fun x y => (h2.links x y).trans (h1.links x y), fun v => (h2.ne v).trans (h1.ne v)⟩

/-- No fill has grown. A chain has grown only if it is one of `G`, and then not beyond `cs`
unless that is zero. -/
structure Eased (P : Prob) (E E' : Emb) (cs : Nat) (G : Nat → Prop) : Prop where
  w : ∀ q, E'.w q ≤ E.w q
  size : ∀ v, E'.chainsize P v ≤ E.chainsize P v ∨ (G v ∧ (cs = 0 ∨ E'.chainsize P v ≤ cs))

theorem Eased.refl (E : Emb) (cs : Nat) (G : Nat → Prop) : Eased P E E cs G :=
  ⟨fun _ => Int.le_refl _, fun _ => Or.inl (Nat.le_refl _)⟩

theorem Eased.trans {A B C : Emb} {cs : Nat} {G : Nat → Prop} (h1 : Eased P A B cs G)
    (h2 : Eased P B C cs G) : Eased P A C cs G := by
  refine ⟨fun q => Int.le_trans (h2.w q) (h1.w q), fun v => ?_⟩
  rcases h2.size v with a | a
  · rcases h1.size v with b | ⟨b, c⟩
    · left; omega
    · right; exact ⟨b, by omega⟩
  · exact Or.inr a

theorem Eased.mono {A B : Emb} {cs : Nat} {G G' : Nat → Prop} (h : Eased P A B cs G)
    (hG : ∀ v, G v → G' v) : Eased P A B cs G' :=
  ⟨h.w, fun v => (h.size v).imp id (fun x => ⟨hG v x.1, x.2⟩)⟩

/-- `steal` between two linked free variables. -/
theorem EInv.stealPair (wf : P.WF) (hR : Dom P R) (h : EInv P R E) {cs a b : Nat}
    (ha : a < P.nv) (hb : b < P.nv) (hab : a ≠ b) (hl : E.L a b = true) :
    Ok (Emb.stealPair P E cs a b) (fun E' => EInv P R E' ∧ SameView E E' ∧
      Eased P E E' cs (fun v => v = a)) := by
  have haN : a < P.N := by unfold Prob.N; omega
  have hbN : b < P.N := by unfold Prob.N; omega
  obtain ⟨q, hq⟩ := Emb.L_iff.1 hl
  obtain ⟨p, hp, hnear⟩ := h.sym a b q haN hbN hab hq
  have hav := h.nbr a b q haN hb hab hq
  have hbv := wf.vn_symm b a hb ha hav
  obtain ⟨c', o', w', q', p', he, h1, h2, h3, h4, h5, h6, h7, h8, h9, h10, h11, h12, h13⟩ :=
    Chain.steal_spec (w := E.w) P.adj_symm (P.accepts a) cs (h.cinv a haN) (h.cinv b hbN)
      (by rw [h.lab b hbN]; exact hq) (by rw [h.lab a haN]; exact hp) hnear
  rw [h.lab b hbN] at h6
  rw [h.lab a haN] at h7
  refine ⟨{ E with chains := upd (upd E.chains a c') b o', w := w' },
    by simp only [Emb.stealPair, he, bind, Except.bind], ?_, ?_, ?_⟩
  · refine h.link2 haN hbN hab h1 h2 (h4.trans (h.lab a haN)) (h5.trans (h.lab b hbN)) h6 h7 h3
      h8 h9 (fun _ => hbv) (fun _ => hav) ?_ ?_ (by omega) (by omega) h10
    · intro i _ hi
      rcases h11 i hi with hi | hi
      · exact h.dom a i ha hi
      · exact hR.steal a b i ha hb hbv (h.dom b i hb hi.1) hi.2.1
    · intro i _ hi; exact h.dom b i hb (h12 i hi)
  · constructor
    · intro x y
      unfold Emb.L
      dsimp only
      by_cases hxb : x = b
      · subst hxb
        simp only [upd_same, h7]
        by_cases hya : y = a
        · subst hya; simp [hp]
        · simp [hya]
      · by_cases hxa : x = a
        · subst hxa
          simp only [ne_eq, hxb, not_false_eq_true, upd_ne, upd_same, h6]
          by_cases hyb : y = b
          · subst hyb; simp [hq]
          · simp [hyb]
        · simp [hxa, hxb]
    · intro v
      unfold Emb.NE
      dsimp only
      by_cases hvb : v = b
      · subst hvb
        simp only [upd_same]
        refine ⟨fun _ => ⟨p, (h.cinv v hbN).lin a p hp⟩, fun _ => ⟨p', ?_⟩⟩
        exact h2.lin a p' (by rw [h7]; simp)
      · by_cases hva : v = a
        · subst hva
          simp only [ne_eq, hvb, not_false_eq_true, upd_ne, upd_same]
          refine ⟨fun _ => ⟨q, (h.cinv v haN).lin b q hq⟩, fun _ => ⟨q', ?_⟩⟩
          exact h1.lin b q' (by rw [h6]; simp)
        · simp [hva, hvb]
  · constructor
    · intro x
      dsimp only
      have e := h10 x
      have key : ∀ x1 x2 x3 x4 : Bool, (x1 = true → x3 = true ∨ (x4 = true ∧ x2 = false)) →
          (x2 = true → x4 = true) → ind x1 + ind x2 ≤ ind x3 + ind x4 := by decide
      have := key _ _ _ _ (fun hi => (h11 x hi).imp id (fun y => ⟨y.1, y.2.2⟩)) (h12 x)
      omega
    · intro v
      unfold Emb.chainsize
      dsimp only
      by_cases hvb : v = b
      · subst hvb
        left
        simp only [upd_same]
        exact cnt_mono (fun i _ hi => h12 i hi)
      · by_cases hva : v = a
        · subst hva
          simp only [ne_eq, hvb, not_false_eq_true, upd_ne, upd_same]
          by_cases h0 : cs = 0
          · exact Or.inr ⟨trivial, Or.inl h0⟩
          · have := h13 h0
            by_cases hle : Chain.size P.Q c' ≤ Chain.size P.Q (E.chains v)
            · exact Or.inl hle
            · exact Or.inr ⟨trivial, Or.inr (by omega)⟩
        · left; simp [hva, hvb]

/-- `flip_back` on a variable linked to all its non-empty neighbours. -/
theorem EInv.flipBack_full (wf : P.WF) (hR : Dom P R) {u cs : Nat} (hu : u < P.nv) {vnu : List Nat}
    (hvn : ∀ v ∈ vnu, v ∈ P.vn u) (h : EInv P R E)
    (hl : ∀ v ∈ vnu, E.NE v → E.L u v = true) :
    Ok (Emb.flipBack P E vnu u cs) (fun E' => EInv P R E' ∧ SameView E E' ∧
      Eased P E E' cs (fun v => v ≠ u)) := by
  refine Ok.foldlM' (fun E' => EInv P R E' ∧ SameView E E' ∧ Eased P E E' cs (fun v => v ≠ u))
    ⟨h, SameView.refl E, Eased.refl E _ _⟩ ?_
  rintro v E1 hv ⟨hE1, hsv, hea⟩
  have hvN := wf.vn_lt u v hu (hvn v hv)
  have huN : u < P.N := by unfold Prob.N; omega
  split
  · next hc =>
    have hfx : v < P.nv := by simpa [Prob.fixed] using hc.2
    have hne := (hE1.size_iff hvN).1 hc.1
    have hl1 : E1.L v u = true := by
      rw [hE1.L_symm hvN huN, hsv.links]
      exact hl v hv ((hsv.ne v).1 hne)
    have hvu : v ≠ u := by
      intro hc; subst hc; exact wf.vn_irr v hu (hvn v hv)
    refine (hE1.stealPair wf hR hfx hu hvu hl1).mono ?_
    rintro E2 ⟨h1, h2, h3⟩
    exact ⟨h1, hsv.trans h2, hea.trans (h3.mono (by rintro x rfl; exact hvu))⟩
  · exact Ok.pure ⟨hE1, hsv, hea⟩

theorem EInv.flipBack (wf : P.WF) (hR : Dom P R) {u cs : Nat} (hu : u < P.nv) {vnu : List Nat}
    (hvn : ∀ v ∈ vnu, v ∈ P.vn u) (h : EInv P R E)
    (hl : ∀ v ∈ vnu, E.NE v → E.L u v = true) :
    Ok (Emb.flipBack P E vnu u cs) (fun E' => EInv P R E' ∧ SameView E E') :=
  (h.flipBack_full wf hR hu hvn hl).mono (fun _ h => ⟨h.1, h.2.1⟩)

/-- `steal_all`. -/
theorem EInv.stealAll_full (wf : P.WF) (hR : Dom P R) {u : Nat} (hu : u < P.nv) {vnu : List Nat}
    (hvn : ∀ v ∈ vnu, v ∈ P.vn u) (h : EInv P R E) :
    Ok (Emb.stealAll P E vnu u) (fun E' => EInv P R E' ∧ SameView E E' ∧
      Eased P E E' 0 (fun v => v = u)) := by
  refine Ok.foldlM' (fun E' => EInv P R E' ∧ SameView E E' ∧ Eased P E E' 0 (fun v => v = u))
    ⟨h, SameView.refl E, Eased.refl E _ _⟩ ?_
  rintro v E1 hv ⟨hE1, hsv, hea⟩
  split
  · exact Ok.pure ⟨hE1, hsv, hea⟩
  next hf =>
  split
  · exact Ok.pure ⟨hE1, hsv, hea⟩
  next hl1 =>
  split
  · exact Ok.pure ⟨hE1, hsv, hea⟩
  have hfx : v < P.nv := by simpa [Prob.fixed] using hf
  have hvu : u ≠ v := by
    intro hc; subst hc; exact wf.vn_irr u hu (hvn u hv)
  refine (hE1.stealPair wf hR hu hfx hvu (by simp [Emb.L, Option.isSome_iff_ne_none]; simpa using hl1)).mono ?_
  rintro E2 ⟨h1, h2, h3⟩
  exact ⟨h1, hsv.trans h2, hea.trans h3⟩

theorem EInv.stealAll (wf : P.WF) (hR : Dom P R) {u : Nat} (hu : u < P.nv) {vnu : List Nat}
    (hvn : ∀ v ∈ vnu, v ∈ P.vn u) (h : EInv P R E) :
    Ok (Emb.stealAll P E vnu u) (fun E' => EInv P R E' ∧ SameView E E') :=
  (h.stealAll_full wf hR hu hvn).mono (fun _ h => ⟨h.1, h.2.1⟩)

/-! ### tear out -/

/-- `E'` is `E` without the chain of `u`. -/
structure TornOut (P : Prob) (E E' : Emb) (u : Nat) : Prop where
  own : E'.chains u = Chain.empty u
  cinv : ∀ v, v < P.N → v ≠ u → CInv P.N P.Q P.adj zero (E'.chains v)
  lab : ∀ v, v ≠ u → (E'.chains v).label = (E.chains v).label
  par : ∀ v, v ≠ u → (E'.chains v).parents = (E.chains v).parents
  links : ∀ v, v < P.N → v ≠ u → (E'.chains v).links = upd (E.chains v).links u none
  w : ∀ q, E'.w q = E.w q - ind ((E.chains u).has q)

theorem upd_id {α : Type} {f : Nat → α} {k : Nat} {v : α} (h : f k = v) : upd f k v = f := by
  subst h; exact upd_self f k

theorem EInv.tornOut (h : EInv P R E) {E' : Emb} {u : Nat} (hu : u < P.nv)
    (ht : TornOut P E E' u) : EInv P R E' where
  exact := by
    intro q
    have huN : u < P.N := by unfold Prob.N; omega
    have h1 := cnt_change (p := fun v => (E.chains v).has q)
      (p' := fun v => (E'.chains v).has q) (k := u) huN (fun i hi => by
        exact Chain.has_congr (ht.par i hi) q)
    have h2 := ht.w q
    have h3 := h.exact q
    rw [ht.own, empty_chain_has] at h1
    simp at h1
    omega
  cinv := by
    intro v hv
    by_cases hvu : v = u
    · subst hvu; rw [ht.own]; exact Chain.empty_inv hv
    · exact ht.cinv v hv hvu
  lab := by
    intro v hv
    by_cases hvu : v = u
    · subst hvu; rw [ht.own]; rfl
    · rw [ht.lab v hvu]; exact h.lab v hv
  sym := by
    intro a b q ha hb hab hl
    by_cases hau : a = u
    · subst hau; rw [ht.own] at hl; simp [Chain.empty] at hl
    · rw [ht.links a ha hau] at hl
      by_cases hbu : b = u
      · subst hbu; simp at hl
      · simp only [ne_eq, hbu, not_false_eq_true, upd_ne] at hl
        obtain ⟨p, hp, hn⟩ := h.sym a b q ha hb hab hl
        refine ⟨p, ?_, hn⟩
        rw [ht.links b hb hbu]; simp [hau, hp]
  nbr := by
    intro a b q ha hb hab hl
    by_cases hau : a = u
    · subst hau; rw [ht.own] at hl; simp [Chain.empty] at hl
    · rw [ht.links a ha hau] at hl
      by_cases hbu : b = u
      · subst hbu; simp at hl
      · simp only [ne_eq, hbu, not_false_eq_true, upd_ne] at hl
        exact h.nbr a b q ha hb hab hl
  root := by
    intro v r hv hl
    by_cases hvu : v = u
    · subst hvu; rw [ht.own] at hl; simp [Chain.empty] at hl
    · rw [ht.links v hv hvu] at hl
      simp only [ne_eq, hvu, not_false_eq_true, upd_ne] at hl
      rw [ht.par v hvu]; exact h.root v r hv hl
  dom := by
    intro v q hv hq
    by_cases hvu : v = u
    · subst hvu; rw [ht.own, empty_chain_has] at hq; simp at hq
    · rw [Chain.has_congr (ht.par v hvu)] at hq; exact h.dom v q hv hq
  fixd := by
    intro v q hv hvN
    have hvu : v ≠ u := by omega
    rw [Chain.has_congr (ht.par v hvu)]; exact h.fixd v q hv hvN

/-- view of an embedding after `u` was torn out -/
structure TornView (E E' : Emb) (u : Nat) (N : Nat) : Prop where
  links : ∀ x y, x < N → E'.L x y = (E.L x y && decide (x ≠ u) && decide (y ≠ u))
  ne : ∀ v, E'.NE v ↔ E.NE v ∧ v ≠ u

theorem TornOut.view {E' : Emb} {u : Nat} (ht : TornOut P E E' u) : TornView E E' u P.N := by
  constructor
  · intro x y hx
    unfold Emb.L
    by_cases hxu : x = u
    · subst hxu; rw [ht.own]; simp [Chain.empty]
    · rw [ht.links x hx hxu]
      by_cases hyu : y = u
      · subst hyu; simp
      · simp [hxu, hyu]
  · intro v
    unfold Emb.NE
    by_cases hvu : v = u
    · subst hvu; rw [ht.own]; simp [empty_chain_has]
    · simp [Chain.has_congr (ht.par v hvu), hvu]

/-- dropping the link for `u` from chain `v`, whether or not it is there -/
theorem dropLink_spec {c : Chain} {nv nq : Nat} {adj : Nat → Nat → Prop} {ex : Nat → Int}
    (h : CInv nv nq adj ex c) (x : Nat) :
    ∃ c', Chain.dropLink c x = .ok (c', c.links x) ∧ CInv nv nq adj ex c' ∧ c'.label = c.label ∧
      c'.links = upd c.links x none ∧ c'.parents = c.parents := by
  cases hl : c.links x with
  | none => exact ⟨c, Chain.dropLink_none hl, h, rfl, (upd_id hl).symm, rfl⟩
  | some q => exact h.dropLink hl

theorem EInv.tearOut (wf : P.WF) {u : Nat} (hu : u < P.nv) {vnu : List Nat}
    (hvn : ∀ v, v ∈ vnu ↔ v ∈ P.vn u) (h : EInv P R E) :
    Ok (Emb.tearOut E vnu u) (fun E' => EInv P R E' ∧ TornOut P E E' u) := by
  have huN : u < P.N := by unfold Prob.N; omega
  suffices hs : Ok (Emb.tearOut E vnu u) (fun E' => TornOut P E E' u) from
    hs.mono (fun E' ht => ⟨h.tornOut hu ht, ht⟩)
  unfold Emb.tearOut
  refine (Ok.foldlM (fun done E' => E'.chains u = Chain.empty u ∧
    (∀ q, E'.w q = E.w q - ind ((E.chains u).has q)) ∧
    ∀ v, v ≠ u → (v < P.N → CInv P.N P.Q P.adj zero (E'.chains v)) ∧
      (E'.chains v).label = (E.chains v).label ∧
      (E'.chains v).parents = (E.chains v).parents ∧
      (E'.chains v).links = if v ∈ done then upd (E.chains v).links u none else (E.chains v).links)
    ?_ ?_).mono ?_
  · refine ⟨?_, ?_, ?_⟩
    · simp [Chain.clear, h.lab u huN]
    · intro q; simp [Chain.clear]
    · intro v hv; simp only [ne_eq, hv, not_false_eq_true, upd_ne]
      exact ⟨fun hvN => h.cinv v hvN, trivial, trivial, by simp⟩
  · rintro done v E1 hv _ ⟨i1, i2, i3⟩
    have hvu : v ≠ u := by
      intro hc; subst hc; exact wf.vn_irr v hu ((hvn v).1 hv)
    have hvN := wf.vn_lt u v hu ((hvn v).1 hv)
    obtain ⟨j1, j2, j3, j4⟩ := i3 v hvu
    obtain ⟨c', hd, k1, k2, k3, k4⟩ := dropLink_spec (j1 hvN) u
    refine ⟨{ E1 with chains := upd E1.chains v c' }, by
      simp only [hd, bind, Except.bind], ?_, i2, ?_⟩
    · simpa [Ne.symm hvu] using i1
    · intro x hx
      by_cases hxv : x = v
      · subst hxv
        simp only [upd_same]
        refine ⟨fun _ => k1, k2.trans j2, k4.trans j3, ?_⟩
        rw [k3, j4]
        split
        · next hm => simp [upd_id]
        · simp
      · simp only [ne_eq, hxv, not_false_eq_true, upd_ne]
        obtain ⟨l1, l2, l3, l4⟩ := i3 x hx
        exact ⟨l1, l2, l3, by simp [l4, hxv]⟩
  · rintro E' ⟨i1, i2, i3⟩
    refine ⟨i1, fun v hv hvu => (i3 v hvu).1 hv, fun v hvu => (i3 v hvu).2.1,
      fun v hvu => (i3 v hvu).2.2.1, ?_, i2⟩
    intro v hvN hvu
    rw [(i3 v hvu).2.2.2]
    split
    · rfl
    · next hm =>
      rw [upd_id]
      cases hl : (E.chains v).links u with
      | none => rfl
      | some q => exact absurd ((hvn v).2 (h.nbr v u q hvN hu hvu hl)) hm

/-! ### freeze and thaw -/

/-- The frozen chain of `u` fits the embedding. -/
structure FInv (P : Prob) (R : Nat → Nat → Prop) (E : Emb) (u : Nat) : Prop where
  cinv : CInv P.N P.Q P.adj zero ⟨u, E.fr.data, E.fr.own⟩
  root : ∀ r, E.fr.own u = some r →
    ∀ i, (Chain.mk u E.fr.data E.fr.own).parents i = some i → i = r
  dom : ∀ q, (Chain.mk u E.fr.data E.fr.own).has q = true → R u q
  peer : ∀ v, v ≠ u → match E.fr.own v with
    | none => E.fr.peer v = none
    | some q => v ∈ P.vn u ∧ (v < P.nv → u ∈ P.vn v) ∧
        ∃ p, E.fr.peer v = some (some p) ∧ (E.chains v).has p = true ∧ Near P.adj q p
  self : E.fr.peer u = none

theorem EInv.freezeOut (wf : P.WF) {u : Nat} (hu : u < P.nv) (h : EInv P R E) :
    Ok (Emb.freezeOut P E u) (fun r => EInv P R r.1 ∧ TornOut P E r.1 u ∧ FInv P R r.1 u ∧
      r.1.fr.data = (E.chains u).data ∧ r.1.fr.own = (E.chains u).links ∧
      r.2 = E.chainsize P u) := by
  have huN : u < P.N := by unfold Prob.N; omega
  unfold Emb.freezeOut
  refine Ok.bind (P := fun (r : (Nat → Chain) × (Nat → Option (Option Nat))) =>
      r.2 u = none ∧ ∀ v, v ≠ u →
      (v < P.N → CInv P.N P.Q P.adj zero (r.1 v)) ∧
      (r.1 v).label = (E.chains v).label ∧ (r.1 v).parents = (E.chains v).parents ∧
      (v < P.N → (r.1 v).links = upd (E.chains v).links u none) ∧
      (∀ q, (E.chains u).links v = some q → r.2 v = some ((E.chains v).links u)) ∧
      ((E.chains u).links v = none → r.2 v = none))
    ?_ ?_
  · refine (Ok.foldlM (fun done (r : (Nat → Chain) × (Nat → Option (Option Nat))) =>
      r.2 u = none ∧ ∀ v, v ≠ u →
      (v < P.N → CInv P.N P.Q P.adj zero (r.1 v)) ∧
      (r.1 v).label = (E.chains v).label ∧ (r.1 v).parents = (E.chains v).parents ∧
      (v ∈ done → (r.1 v).links = upd (E.chains v).links u none) ∧
      (v ∉ done → (r.1 v).links = (E.chains v).links) ∧
      (v ∈ done → ∀ q, (E.chains u).links v = some q → r.2 v = some ((E.chains v).links u)) ∧
      ((E.chains u).links v = none → r.2 v = none)) ?_ ?_).mono ?_
    · exact ⟨rfl, fun v hv => ⟨fun hvN => h.cinv v hvN, rfl, rfl, by simp, by simp, by simp, by simp⟩⟩
    · rintro done v ⟨ch, peer⟩ hv ⟨rest, hrest⟩ ⟨i0, i3⟩
      have hvN : v < P.N := by simpa using hv
      have hnd : v ∉ done := by
        have : (List.range P.N).Nodup := List.nodup_range
        rw [hrest, List.nodup_append] at this
        intro hc
        exact this.2.2 v hc v (by simp) rfl
      dsimp only at *
      split
      · next hcond =>
        obtain ⟨hs, hvu⟩ := hcond
        obtain ⟨q, hq⟩ := Option.isSome_iff_exists.1 hs
        obtain ⟨j1, j2, j3, j4, j5, j6, j7⟩ := i3 v hvu
        obtain ⟨c', hd, k1, k2, k3, k4⟩ := dropLink_spec (j1 hvN) u
        refine ⟨(upd ch v c', upd peer v (some ((ch v).links u))), by
          simp only [hd, bind, Except.bind], ?_, ?_⟩
        · simpa [Ne.symm hvu] using i0
        · intro x hx
          by_cases hxv : x = v
          · subst hxv
            simp only [upd_same]
            refine ⟨fun _ => k1, k2.trans j2, k4.trans j3, ?_, ?_, ?_, ?_⟩
            · intro _; rw [k3, j5 hnd]
            · intro hc; exact absurd (by simp) hc
            · intro _ q' hq'; rw [j5 hnd]
            · intro hc; rw [hq] at hc; simp at hc
          · simp only [ne_eq, hxv, not_false_eq_true, upd_ne]
            obtain ⟨l1, l2, l3, l4, l5, l6, l7⟩ := i3 x hx
            refine ⟨l1, l2, l3, ?_, ?_, ?_, l7⟩
            · intro hm; exact l4 (by simpa [hxv] using hm)
            · intro hm; exact l5 (by simpa [hxv] using hm)
            · intro hm; exact l6 (by simpa [hxv] using hm)
      · next hcond =>
        refine Ok.pure ⟨i0, ?_⟩
        intro x hx
        obtain ⟨l1, l2, l3, l4, l5, l6, l7⟩ := i3 x hx
        by_cases hxv : x = v
        · subst hxv
          have hn : (E.chains u).links x = none := by
            by_contra hc
            exact hcond ⟨Option.isSome_iff_ne_none.2 hc, hx⟩
          have hn2 : (E.chains x).links u = none := by
            have := h.L_symm huN hvN
            simp only [Emb.L, hn] at this
            simpa using this.symm
          refine ⟨l1, l2, l3, ?_, ?_, ?_, l7⟩
          · intro _; rw [l5 hnd, upd_id hn2]
          · intro hc; exact absurd (by simp) hc
          · intro _ q hq; rw [hn] at hq; simp at hq
        · refine ⟨l1, l2, l3, ?_, ?_, ?_, l7⟩
          · intro hm; exact l4 (by simpa [hxv] using hm)
          · intro hm; exact l5 (by simpa [hxv] using hm)
          · intro hm; exact l6 (by simpa [hxv] using hm)
    · rintro ⟨ch, peer⟩ ⟨i0, i3⟩
      refine ⟨i0, fun v hv => ?_⟩
      obtain ⟨l1, l2, l3, l4, l5, l6, l7⟩ := i3 v hv
      refine ⟨l1, l2, l3, fun hvN => l4 (by simpa using hvN), ?_, l7⟩
      intro q hq
      exact l6 (by simpa using (h.cinv u huN).ldom v q hq) q hq
  · rintro ⟨ch, peer⟩ ⟨i0, i3⟩
    dsimp only at i0 i3
    have ht : TornOut P E { chains := upd ch u (Chain.empty (E.chains u).label)
                            w := fun q => E.w q - ind ((E.chains u).has q)
                            fr := ⟨(E.chains u).data, (E.chains u).links, peer⟩ } u := by
      refine ⟨?_, ?_, ?_, ?_, ?_, fun q => rfl⟩
      · simp [h.lab u huN]
      · intro v hv hvu; simp [hvu]; exact (i3 v hvu).1 hv
      · intro v hvu; simp [hvu]; exact (i3 v hvu).2.1
      · intro v hvu; simp [hvu]; exact (i3 v hvu).2.2.1
      · intro v hv hvu; simp [hvu]; exact (i3 v hvu).2.2.2.1 hv
    have hcu : (⟨u, (E.chains u).data, (E.chains u).links⟩ : Chain) = E.chains u := by
      have := h.lab u huN
      cases hE : E.chains u with
      | mk l d k => rw [hE] at this; simp only at this ⊢; rw [this]
    refine Ok.pure ⟨h.tornOut hu ht, ht, ?_, rfl, rfl, rfl⟩
    refine ⟨?_, ?_, ?_, ?_, i0⟩
    · dsimp only; rw [hcu]; exact h.cinv u huN
    · dsimp only; rw [hcu]; exact fun r => h.root u r huN
    · dsimp only; rw [hcu]; exact fun q => h.dom u q hu
    · intro v hvu
      dsimp only
      obtain ⟨l1, l2, l3, l4, l5, l6⟩ := i3 v hvu
      cases hl : (E.chains u).links v with
      | none => exact l6 hl
      | some q =>
        have hvN := (h.cinv u huN).ldom v q hl
        obtain ⟨p, hp, hn⟩ := h.sym u v q huN hvN (Ne.symm hvu) hl
        refine ⟨h.nbr v u p hvN hu hvu hp, fun hv => h.nbr u v q huN hv (Ne.symm hvu) hl, p, ?_, ?_, hn⟩
        · rw [l5 q hl, hp]
        · simp only [ne_eq, hvu, not_false_eq_true, upd_ne]
          rw [Chain.has_congr l3]; exact (h.cinv v hvN).lin u p hp

/-- `E'` is `E` with the chain `c` put in for `u`. -/
structure PutIn (P : Prob) (E E' : Emb) (u : Nat) (c : Chain) : Prop where
  own : E'.chains u = c
  par : ∀ v, v ≠ u → (E'.chains v).parents = (E.chains v).parents
  view : ∀ x y, x < P.N → E'.L x y = if x = u then (c.links y).isSome
    else if y = u then (c.links x).isSome else E.L x y

theorem EInv.thawBack (wf : P.WF) {u : Nat} (hu : u < P.nv) (h : EInv P R E)
    (hown : E.chains u = Chain.empty u)
    (hno : ∀ v, v < P.N → (E.chains v).links u = none) (hf : FInv P R E u) :
    Ok (Emb.thawBack P E u) (fun E' => EInv P R E' ∧
      PutIn P E E' u ⟨u, E.fr.data, E.fr.own⟩) := by
  have huN : u < P.N := by unfold Prob.N; omega
  unfold Emb.thawBack
  dsimp only
  have hcu : (⟨(E.chains u).label, E.fr.data, fun v => ((E.chains u).links v).or (E.fr.own v)⟩ :
      Chain) = ⟨u, E.fr.data, E.fr.own⟩ := by
    rw [hown]; simp [Chain.empty]
  rw [hcu]
  refine Ok.bind (P := fun (ch : Nat → Chain) => ch u = ⟨u, E.fr.data, E.fr.own⟩ ∧ ∀ v, v ≠ u →
      (v < P.N → CInv P.N P.Q P.adj zero (ch v)) ∧
      (ch v).label = (E.chains v).label ∧ (ch v).parents = (E.chains v).parents ∧
      (v < P.N → (ch v).links = upd (E.chains v).links u ((E.fr.peer v).getD none))) ?_ ?_
  · refine (Ok.foldlM (fun done (ch : Nat → Chain) => ch u = ⟨u, E.fr.data, E.fr.own⟩ ∧
      ∀ v, v ≠ u →
      (v < P.N → CInv P.N P.Q P.adj zero (ch v)) ∧
      (ch v).label = (E.chains v).label ∧ (ch v).parents = (E.chains v).parents ∧
      (v ∈ done → (ch v).links = upd (E.chains v).links u ((E.fr.peer v).getD none)) ∧
      (v ∉ done → (ch v).links = (E.chains v).links)) ?_ ?_).mono ?_
    · refine ⟨by simp, fun v hv => ?_⟩
      simp only [ne_eq, hv, not_false_eq_true, upd_ne]
      exact ⟨fun hvN => h.cinv v hvN, trivial, trivial, by simp, by simp⟩
    · rintro done v ch hv ⟨rest, hrest⟩ ⟨i0, i3⟩
      have hvN : v < P.N := by simpa using hv
      have hnd : v ∉ done := by
        have : (List.range P.N).Nodup := List.nodup_range
        rw [hrest, List.nodup_append] at this
        intro hc
        exact this.2.2 v hc v (by simp) rfl
      by_cases hvu : v = u
      · subst hvu
        rw [hf.self]
        refine Ok.pure ⟨i0, fun x hx => ?_⟩
        obtain ⟨l1, l2, l3, l4, l5⟩ := i3 x hx
        exact ⟨l1, l2, l3, fun hm => l4 (by simpa [hx] using hm), fun hm => l5 (by
          simpa [hx] using hm)⟩
      obtain ⟨j1, j2, j3, j4, j5⟩ := i3 v hvu
      have hpeer := hf.peer v hvu
      cases hown' : E.fr.own v with
      | none =>
        rw [hown'] at hpeer
        dsimp only at hpeer
        rw [hpeer]
        refine Ok.pure ⟨i0, fun x hx => ?_⟩
        obtain ⟨l1, l2, l3, l4, l5⟩ := i3 x hx
        by_cases hxv : x = v
        · subst hxv
          refine ⟨l1, l2, l3, fun _ => ?_, fun hm => absurd (by simp) hm⟩
          rw [l5 hnd, hpeer]; simp [upd_id (hno x hvN)]
        · exact ⟨l1, l2, l3, fun hm => l4 (by simpa [hxv] using hm), fun hm => l5 (by
            simpa [hxv] using hm)⟩
      | some q =>
        rw [hown'] at hpeer
        dsimp only at hpeer
        obtain ⟨_, _, p, hp, hhas, _⟩ := hpeer
        rw [hp]
        obtain ⟨c', hs, k1, k2, k3, k4⟩ := (j1 hvN).setLink (x := u) (q := p) huN
          (by rw [j5 hnd]; exact hno v hvN) (by rw [Chain.has_congr j3]; exact hhas)
        refine ⟨upd ch v c', by simp only [hs, bind, Except.bind], ?_, fun x hx => ?_⟩
        · simpa [Ne.symm hvu] using i0
        · by_cases hxv : x = v
          · subst hxv
            simp only [upd_same]
            refine ⟨fun _ => k1, k2.trans j2, k4.trans j3, fun _ => ?_, fun hm => absurd (by simp) hm⟩
            rw [k3, j5 hnd, hp]; rfl
          · simp only [ne_eq, hxv, not_false_eq_true, upd_ne]
            obtain ⟨l1, l2, l3, l4, l5⟩ := i3 x hx
            exact ⟨l1, l2, l3, fun hm => l4 (by simpa [hxv] using hm), fun hm => l5 (by
              simpa [hxv] using hm)⟩
    · rintro ch ⟨i0, i3⟩
      refine ⟨i0, fun v hv => ?_⟩
      obtain ⟨l1, l2, l3, l4, l5⟩ := i3 v hv
      exact ⟨l1, l2, l3, fun hvN => l4 (by simpa using hvN)⟩
  · rintro ch ⟨i0, i3⟩
    -- links of the others to `u`
    have hpl : ∀ v, v < P.N → v ≠ u → ∀ p, (ch v).links u = some p →
        ∃ q, E.fr.own v = some q ∧ Near P.adj q p ∧ v ∈ P.vn u ∧ (v < P.nv → u ∈ P.vn v) := by
      intro v hvN hvu p hp
      rw [(i3 v hvu).2.2.2 hvN] at hp
      simp only [upd_same] at hp
      have hpeer := hf.peer v hvu
      cases hown' : E.fr.own v with
      | none => rw [hown'] at hpeer; dsimp only at hpeer; rw [hpeer] at hp; simp at hp
      | some q =>
        rw [hown'] at hpeer
        dsimp only at hpeer
        obtain ⟨h1, h2, p', hp', _, hn⟩ := hpeer
        rw [hp'] at hp
        simp at hp; subst hp
        exact ⟨q, rfl, hn, h1, h2⟩
    have hpl2 : ∀ v, v < P.N → v ≠ u → ∀ q, E.fr.own v = some q →
        ∃ p, (ch v).links u = some p ∧ Near P.adj q p ∧ v ∈ P.vn u ∧ (v < P.nv → u ∈ P.vn v) := by
      intro v hvN hvu q hq
      have hpeer := hf.peer v hvu
      rw [hq] at hpeer
      dsimp only at hpeer
      obtain ⟨h1, h2, p', hp', _, hn⟩ := hpeer
      refine ⟨p', ?_, hn, h1, h2⟩
      rw [(i3 v hvu).2.2.2 hvN, hp']; simp
    have hln : ∀ a b, a < P.N → a ≠ u → b ≠ u → (ch a).links b = (E.chains a).links b := by
      intro a b ha hau hbu
      rw [(i3 a hau).2.2.2 ha]; simp [hbu]
    have near_symm : ∀ {q p}, Near P.adj q p → Near P.adj p q := by
      intro q p hn
      rcases hn with h | h
      · exact Or.inl h.symm
      · exact Or.inr (P.adj_symm _ _ h)
    refine Ok.pure ⟨⟨⟨?_, ?_, ?_, ?_, ?_, ?_, ?_⟩, ?_⟩, ⟨i0, fun v hv => (i3 v hv).2.2.1, ?_⟩⟩
    case refine_9 =>
      intro x y hx
      unfold Emb.L
      dsimp only
      by_cases hxu : x = u
      · subst hxu; simp [i0]
      · by_cases hyu : y = u
        · subst hyu
          simp only [hxu, if_false, if_true]
          rw [Bool.eq_iff_iff, Option.isSome_iff_exists, Option.isSome_iff_exists]
          constructor
          · rintro ⟨p, hp⟩
            obtain ⟨q, hq, _⟩ := hpl x hx hxu p hp
            exact ⟨q, hq⟩
          · rintro ⟨q, hq⟩
            obtain ⟨p, hp, _⟩ := hpl2 x hx hxu q hq
            exact ⟨p, hp⟩
        · simp only [hxu, hyu, if_false]
          rw [hln x y hx hxu hyu]
    · intro v hv
      dsimp only
      by_cases hvu : v = u
      · subst hvu; rw [i0]; exact hf.cinv
      · exact (i3 v hvu).1 hv
    · intro v hv
      dsimp only
      by_cases hvu : v = u
      · subst hvu; rw [i0]
      · rw [(i3 v hvu).2.1]; exact h.lab v hv
    · intro a b q ha hb hab hl
      dsimp only at *
      by_cases hau : a = u
      · subst hau
        rw [i0] at hl
        obtain ⟨p, hp, hn, _⟩ := hpl2 b hb (Ne.symm hab) q hl
        exact ⟨p, hp, hn⟩
      · by_cases hbu : b = u
        · subst hbu
          obtain ⟨q', hq', hn, _⟩ := hpl a ha hab q hl
          exact ⟨q', by rw [i0]; exact hq', near_symm hn⟩
        · rw [hln a b ha hau hbu] at hl
          obtain ⟨p, hp, hn⟩ := h.sym a b q ha hb hab hl
          exact ⟨p, by rw [hln b a hb hbu hau]; exact hp, hn⟩
    · intro a b q ha hb hab hl
      dsimp only at *
      by_cases hau : a = u
      · subst hau
        rw [i0] at hl
        have hbN : b < P.N := by unfold Prob.N; omega
        obtain ⟨p, hp, hn, _, h2⟩ := hpl2 b hbN (Ne.symm hab) q hl
        exact h2 hb
      · by_cases hbu : b = u
        · subst hbu
          obtain ⟨q', hq', hn, h1, _⟩ := hpl a ha hab q hl
          exact h1
        · rw [hln a b ha hau hbu] at hl
          exact h.nbr a b q ha hb hab hl
    · intro v r hv hl
      dsimp only at *
      by_cases hvu : v = u
      · subst hvu; rw [i0] at hl ⊢; exact hf.root r hl
      · rw [hln v v hv hvu hvu] at hl
        rw [(i3 v hvu).2.2.1]; exact h.root v r hv hl
    · intro v q hv hq
      dsimp only at *
      by_cases hvu : v = u
      · subst hvu; rw [i0] at hq; exact hf.dom q hq
      · rw [Chain.has_congr (i3 v hvu).2.2.1] at hq; exact h.dom v q hv hq
    · intro v q hv hvN
      dsimp only
      have hvu : v ≠ u := by omega
      rw [Chain.has_congr (i3 v hvu).2.2.1]; exact h.fixd v q hv hvN
    · intro q
      dsimp only
      have h1 := cnt_change (p := fun v => (E.chains v).has q)
        (p' := fun v => (ch v).has q) (k := u) huN (fun i hi => by
          exact Chain.has_congr (i3 i hi).2.2.1 q)
      have h3 := h.exact q
      rw [hown, empty_chain_has, i0] at h1
      simp only [ind_false, Chain.has] at h1
      simp only [Chain.has] at h3
      rw [h3]
      simp only [Chain.has]
      omega

end MM
