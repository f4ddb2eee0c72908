import Verif.Graph.Miner
import Verif.Graph.QuickFind

/-! What every call on a `miner` keeps true. -/

namespace MM

open Relation
open Scratch (Cfg)

variable {P : Prob} {R : Nat → Nat → Prop} {E : Emb} {I : Input} {p : Proc} {l0 : List Nat}

/-! ### results -/

theorem Ok.bare {α : Type} {m : M α} {Q : α → Prop} (h : Ok m Q) : ∃ a, bare m = .ok a ∧ Q a := by
  obtain ⟨a, rfl, ha⟩ := h
  exact ⟨a, rfl, ha⟩

/-- `m` ends with a value satisfying `Q` or breaks off: without undefined behaviour and
endless loops, by an interrupt only if `i`, by ending the process only if `k`. -/
def Goes (i k : Prop) {α : Type} (m : W α) (Q : α → Prop) : Prop :=
  match m with
  | .ok a => Q a
  | .error e => e = .interrupted ∧ i ∨ (e = .terminated .corrupt ∨ e = .terminated .small) ∧ k

theorem Goes.pure {i k : Prop} {α : Type} {a : α} {Q : α → Prop} (h : Q a) : Goes i k (.ok a : W α) Q := h

theorem Goes.bind {i k : Prop} {α β : Type} {m : W α} {f : α → W β} {A : α → Prop} {Q : β → Prop}
    (h : Goes i k m A) (hf : ∀ a, A a → Goes i k (f a) Q) : Goes i k (m >>= f) Q := by
  cases m with
  | ok a => exact hf a h
  | error e => exact h

theorem Goes.mono {i k : Prop} {α : Type} {m : W α} {A Q : α → Prop} (h : Goes i k m A) (hf : ∀ a, A a → Q a) :
    Goes i k m Q := by
  cases m with
  | ok a => exact hf a h
  | error e => exact h

theorem Goes.kept {i k : Prop} {α : Type} {m : W α} {Q : α → Prop} (h : Goes i k m Q) :
    Goes i k m (fun a => Q a ∧ m = .ok a) := by
  cases m with
  | ok a => exact ⟨h, rfl⟩
  | error e => exact h

theorem Goes.weak {i k : Prop} {α : Type} {m : W α} {Q : α → Prop} (h : Goes i False m Q) : Goes i k m Q := by
  cases m with
  | ok a => exact h
  | error e =>
    rcases h with h | ⟨_, h⟩
    · exact Or.inl h
    · exact h.elim

theorem Ok.goes {i k : Prop} {α : Type} {m : M α} {Q : α → Prop} (h : Ok m Q) : Goes i k (MM.bare m) Q := by
  obtain ⟨a, rfl, ha⟩ := h
  exact ha

/-! ### copies -/

/-- Copying gives the chains, whatever the fills. -/
theorem copy_chains {E other : Emb} (hl : ∀ v, v < P.N → (E.chains v).label = v)
    (ho : ∀ v, v < P.N → (other.chains v).label = v) :
    ∀ v, v < P.N → (E.copy P other).chains v = other.chains v := by
  have key : ∀ n, n ≤ P.N →
      let E' := (List.range n).foldl (init := E) fun E v =>
        let (c, w) := Chain.assign (E.chains v) E.w (other.chains v)
        { E with chains := upd E.chains v c, w := w }
      (∀ v, v < P.N → (E'.chains v).label = v) ∧ ∀ v, v < n → E'.chains v = other.chains v := by
    intro n
    induction n with
    | zero => intro _; exact ⟨hl, by intro v hv; omega⟩
    | succ n ih =>
      intro hn
      obtain ⟨h2, h3⟩ := ih (by omega)
      rw [List.range_succ, List.foldl_append]
      simp only [List.foldl_cons, List.foldl_nil]
      generalize hE' : (List.range n).foldl (init := E) (fun E v =>
        let (c, w) := Chain.assign (E.chains v) E.w (other.chains v)
        { E with chains := upd E.chains v c, w := w }) = E'
      rw [hE'] at h2 h3
      have hch : (Chain.assign (E'.chains n) E'.w (other.chains n)).1 = other.chains n := by
        simp only [Chain.assign, Chain.clear, Chain.empty, h2 n (by omega)]
        have := ho n (by omega)
        cases hoc : other.chains n with
        | mk l d k => rw [hoc] at this; simp only at this ⊢; rw [this]
      refine ⟨?_, ?_⟩
      · intro v hv
        by_cases hvn : v = n
        · subst hvn; simp only [upd_same]; rw [hch]; exact ho v hv
        · simp only [ne_eq, hvn, not_false_eq_true, upd_ne]; exact h2 v hv
      · intro v hv
        by_cases hvn : v = n
        · subst hvn; simp only [upd_same]; exact hch
        · simp only [ne_eq, hvn, not_false_eq_true, upd_ne]; exact h3 v (by omega)
  exact (key P.N (le_refl _)).2

theorem Started.congr {init : List (Nat × List Nat)} {E' : Emb} (wf : P.WF) (h : Started P R init E)
    (hi : ∀ x ∈ init, x.1 < P.nv) (hc : ∀ v, v < P.N → E'.chains v = E.chains v) : Started P R init E' := by
  have lt : ∀ v, v < P.nv → v < P.N := fun v hv => by unfold Prob.N; omega
  refine ⟨h.shape.congr hc, ?_, ?_, ?_⟩
  · intro v q hv; rw [hc v (lt v hv)]; exact h.has v q hv
  · intro x hx hk; unfold Emb.L; rw [hc _ (lt _ (hi x hx))]; exact h.conn x hx hk
  · intro x hx u hu hlt ht
    have hx' := lt _ (hi x hx)
    rw [hc _ hx', hc u (wf.vn_lt _ u (hi x hx) hu)] at ht
    unfold Emb.L; rw [hc _ hx']; exact h.touch x hx u hu hlt ht

/-! ### chains of the caller -/

theorem Proc.Rep.getAll (h : p.Rep I l0) (E : Emb) : ∀ (us : List Nat) (t : Tape),
    Ok (p.getAll E us t) (fun r => r.1.length = us.length ∧
      ∀ (i u : Nat) (c : List Nat), us[i]? = some u → r.1[i]? = some c → Handed p l0 E u c) := by
  intro us
  induction us with
  | nil => intro t; exact Ok.pure (by simp)
  | cons u us ih =>
    intro t
    unfold Proc.getAll
    refine Ok.bind (h.getChain E u t) ?_
    rintro ⟨c, t1⟩ hc
    refine Ok.bind (ih t1) ?_
    rintro ⟨cs, t2⟩ ⟨h1, h2⟩
    refine Ok.pure ⟨by simp at h1 ⊢; exact h1, ?_⟩
    intro i v d hi hd
    cases i with
    | zero => simp at hi hd; subst hi; subst hd; exact hc
    | succ i => simp at hi hd; exact h2 i v d hi hd

/-- All chains of an embedding, in the caller's terms. -/
def AllHanded (I : Input) (p : Proc) (l0 : List Nat) (E : Emb) (cs : List (List Nat)) : Prop :=
  cs.length = I.src.n ∧ ∀ (u : Nat) (c : List Nat), cs[u]? = some c → Handed p l0 E u c

theorem Proc.Rep.getAll_range (h : p.Rep I l0) (E : Emb) (t : Tape) :
    Ok (p.getAll E (List.range I.src.n) t) (fun r => AllHanded I p l0 E r.1) := by
  refine (h.getAll E _ t).mono ?_
  rintro ⟨cs, t⟩ ⟨h1, h2⟩
  have h1' : cs.length = I.src.n := by simpa using h1
  refine ⟨h1', ?_⟩
  intro u c hu
  have hul : u < I.src.n := by
    rw [← h1']; by_contra hc; rw [List.getElem?_eq_none (by dsimp only; omega)] at hu; simp at hu
  exact h2 u u c (by rw [List.getElem?_range hul]) hu

/-! ### other initial chains -/

/-- The same problem with other initial chains. -/
def Input.restart (I : Input) (c : ChainMap) : Input := { I with initC := c }

theorem Proc.Rep.restart (h : p.Rep I l0) {c : ChainMap} {init : List (Nat × List Nat)}
    (h1 : Input.Renum p.comps p.screw c init) (h2 : ∀ kv ∈ c, Input.EntryOK I.src.n I.tgt.n p.comps kv) :
    Proc.Rep (I.restart c) { p with init := init } l0 :=
  ⟨h.wf, h.hN, h.hQ, h.comp0, h.nodup, h.place, h.back, h.conn, h.slt, h.fxv, h.su, h.us, h.fixed, h.ordered,
    h.resv, h.vn, h.qn, h.fch, h1, h2, h.acc, h.free, h.vnf⟩

/-! ### the invariant -/

/-- What holds of a `miner` between calls; `I` holds the present initial chains. -/
structure MInv (I : Input) (l0 : List Nat) (m : Miner) : Prop where
  ok : I.OK
  rep : m.p.Rep I l0
  n : m.n = I.src.n
  nt : m.nt = I.tgt.n
  started : Started m.p.P (fun _ q => q < m.p.P.nq) m.p.init m.X.init
  ri : RI0 m.p.P (fun _ q => q < m.p.P.nq) m.X
  quick : m.quick = true → EInv m.p.P (fun _ q => q < m.p.P.nq) m.X.best
  plain : I.fixedC = [] → EInv m.p.P (fun _ q => q < m.p.P.nq) m.X.best

theorem MInv.even {m : Miner} (h : MInv I l0 m) (hc : I.Compatible) : m.p.P.Even := h.rep.even' hc

theorem Proc.Rep.no_fixed (h : p.Rep I l0) (hf : I.fixedC = []) : p.P.N = p.P.nv := by
  by_contra hne
  have hlt : p.P.nv < p.P.N := by unfold Prob.N at hne ⊢; omega
  obtain ⟨h1, h2⟩ := h.us p.P.nv (by rw [← h.hN]; exact hlt)
  obtain ⟨kv, hkv, _⟩ := (h.fixed _ h1).1 (by omega)
  rw [hf] at hkv
  simp at hkv

theorem empty_inv {P : Prob} (h : P.N = P.nv) : EInv P R Emb.empty := by
  refine ⟨⟨fun v hv => Chain.empty_inv hv, fun _ _ => rfl, ?_, ?_, ?_, ?_, ?_⟩, empty_exact⟩
  · intro u v q _ _ _ h; simp [Emb.empty, Chain.empty] at h
  · intro u v q _ _ _ h; simp [Emb.empty, Chain.empty] at h
  · intro v r _ h; simp [Emb.empty, Chain.empty] at h
  · intro v q _ h; simp [Emb.empty, Chain.empty, Chain.has] at h
  · intro v q _ _; omega

theorem make_spec {sort : List (List Nat) → List (List Nat)} (hs : SortOK sort) (hI : I.OK) (t : Tape) {i : Prop} :
    Goes i True (Miner.make sort I t) (fun m => (∃ l0, MInv I l0 m) ∧ m.quick = false ∧ m.X.best = Emb.empty ∧
      m.restricted = !I.restrC.isEmpty) := by
  unfold Miner.make
  rcases process_spec hs hI with ⟨p, hp, l0, hrep⟩ | hbad | hbad
  · rw [hp]
    have d1 := dom_free p.P
    have d3 := hrep.initOK hI
    have hnew : Ok (Run.new p.P p.init t) (fun X => X.best = Emb.empty) := by
      unfold Run.new
      refine Ok.bind (construct_shape hrep.wf d1 d3) ?_
      rintro ⟨E, t⟩ _
      exact Ok.pure rfl
    obtain ⟨X, hX, ⟨hri, hst⟩, hb⟩ :=
      ((Run.new_spec hrep.wf d1 d3 t).both (Run.new_started hrep.wf d1 d3 t)).both hnew
    simp only [bind, Except.bind, bare]
    rw [hX]
    refine Goes.pure ⟨⟨l0, hI, hrep, rfl, rfl, hst, hri, by simp, fun hf => ?_⟩, rfl, hb, rfl⟩
    dsimp only
    rw [hb]
    exact empty_inv (hrep.no_fixed hf)
  · rw [hbad]; exact Or.inr ⟨Or.inl rfl, trivial⟩
  · rw [hbad]; exact Or.inr ⟨Or.inr rfl, trivial⟩

/-! ### chains that can be used -/

namespace Spec

/-- There is a path between any two nodes. -/
def OnePiece (g : IGraph) : Prop := ∀ a b, a < g.n → b < g.n → ReflTransGen g.Edge a b

/-- Chains of source nodes, made of target nodes. -/
def Usable (I : Input) (c : ChainMap) : Prop :=
  ∀ kv ∈ c, (0 ≤ kv.1 ∧ kv.1 < (I.src.n : Int)) ∧ ∀ x ∈ kv.2, 0 ≤ x ∧ x < (I.tgt.n : Int)

end Spec

theorem MInv.entries {m : Miner} (h : MInv I l0 m) (ho : Spec.OnePiece I.tgt) {c : ChainMap} (hu : Spec.Usable I c) :
    ∀ kv ∈ c, Input.EntryOK I.src.n I.tgt.n m.p.comps kv := by
  intro kv hkv
  obtain ⟨h1, h2⟩ := hu kv hkv
  refine ⟨h1, fun x hx => ?_⟩
  obtain ⟨h3, h4⟩ := h2 x hx
  refine ⟨h3, h4, ?_⟩
  obtain ⟨y, hy⟩ : ∃ y, y ∈ l0 := by
    refine List.exists_mem_of_ne_nil _ ?_
    rintro rfl
    have h6 := h.rep.hQ
    have h7 := h.rep.free
    unfold Prob.Q at h6
    simp at h6
    omega
  obtain ⟨j, hj⟩ := List.getElem?_of_mem hy
  have hyn := (h.rep.place j y hj).1
  obtain ⟨i, hi⟩ := List.getElem?_of_mem ((h.rep.conn y x.toNat hy).1 (ho _ _ hyn (by omega)))
  exact (h.rep.place i _ hi).2.1

theorem make_usable {sort : List (List Nat) → List (List Nat)} (hs : SortOK sort) (hI : I.OK)
    (ho : Spec.OnePiece I.tgt) (hu : Spec.Usable I (I.fixedC ++ I.initC ++ I.restrC)) (t : Tape) :
    Miner.make sort I t ≠ .error (.terminated .corrupt) := by
  intro hm
  have h1 := make_spec hs hI (i := True) t
  unfold Miner.make at hm
  rcases process_full hs hI with ⟨p, hp, l0, hrep⟩ | ⟨_, C, rq, ok, kv, hkv, hk⟩ | hbad
  · rw [hp] at hm
    have d3 := hrep.initOK hI
    obtain ⟨X, hX, _⟩ := Run.new_spec hrep.wf (dom_free p.P) d3 t
    simp only [bind, Except.bind, bare, hX] at hm
    simp at hm
  · apply hk
    obtain ⟨h1, h2⟩ := hu kv hkv
    refine ⟨h1, fun x hx => ?_⟩
    obtain ⟨h3, h4⟩ := h2 x hx
    refine ⟨h3, h4, ?_⟩
    have hl := ok.back 0 hI.tgt_pos
    obtain ⟨l, hl, _⟩ := hl
    have hne : C.comp ≠ [] := by rintro hc; rw [hc] at hl; simp at hl
    obtain ⟨l1, hl1⟩ : ∃ l1, C.comp[0]? = some l1 := by
      cases hc : C.comp with
      | nil => exact absurd hc hne
      | cons a _ => exact ⟨a, rfl⟩
    have hl1ne := ok.ne l1 (List.mem_of_getElem? hl1)
    obtain ⟨y, hy⟩ := List.exists_mem_of_ne_nil _ hl1ne
    obtain ⟨j, hj⟩ := List.getElem?_of_mem hy
    obtain ⟨y1, y2, _⟩ := ok.place 0 l1 j y hl1 hj
    rw [← y2]
    exact (ok.conn _ _ (by omega) y1).2 (ho _ _ (by omega) y1)
  · rw [hbad] at hm
    simp [bind, Except.bind, bare] at hm

/-! ### reading the chains -/

/-- Reading changes the choices only. -/
theorem read_spec {m : Miner} (h : m.p.Rep I l0) (hn : m.n = I.src.n) :
    ∃ (t : Tape) (cs : List (List Nat)), m.read = .ok ({ m with X := { m.X with S := { m.X.S with tape := t } } }, cs) ∧
      AllHanded I m.p l0 m.X.best cs := by
  unfold Miner.read
  rw [hn]
  obtain ⟨⟨cs, t⟩, h1, h2⟩ := h.getAll_range m.X.best m.X.S.tape
  rw [h1]
  exact ⟨t, cs, rfl, h2⟩

theorem RI0.tape {X : Run} (h : RI0 P R X) (t : Tape) : RI0 P R { X with S := { X.S with tape := t } } :=
  ⟨h.vn, h.init, h.curr, h.best, h.last, h.ord⟩

theorem MInv.tape {m : Miner} (h : MInv I l0 m) (t : Tape) :
    MInv I l0 { m with X := { m.X with S := { m.X.S with tape := t } } } :=
  ⟨h.ok, h.rep, h.n, h.nt, h.started, h.ri.tape t, h.quick, h.plain⟩

/-! ### searching -/

/-- What a search leaves. -/
structure MSearched (I : Input) (l0 : List Nat) (A : Params) (ro : Bool) (m m' : Miner) (r : Reply) : Prop where
  inv : MInv I l0 m'
  p : m'.p = m.p
  restr : m'.restricted = m.restricted
  q : m'.quick = m.quick
  reply : r = .raised .badInit ∧ m'.X.best = m.X.best ∨
    ∃ ok cs, r = .found ok cs ∧
      (ok = true → Good m'.p.P (fun _ q => q < m'.p.P.nq) m'.X) ∧ m'.X.embedded = ok ∧
      (ok = false → Good m'.p.P (fun _ q => q < m'.p.P.nq) m'.X ∨ m'.X.best = m.X.best ∧ A.Stops) ∧
      (ro = true ∨ ok = true → AllHanded I m'.p l0 m'.X.best cs) ∧
      (ro = false → ok = false → cs = [])

theorem find_spec {m : Miner} (h : MInv I l0 m) (hc : I.Compatible) (C : Cfg) (A : Params) (ro : Bool) :
    Goes A.Halts False (m.find C A ro) (fun s => MSearched I l0 A ro m s.1 s.2) := by
  unfold Miner.find
  dsimp only
  have d1 := dom_free m.p.P
  have d2 := h.even hc
  have hN : 0 < m.p.P.N := by rw [h.rep.hN]; exact h.ok.src_pos
  generalize hA' : { A with restricted := m.restricted } = A'
  have hH : A'.Halts → A.Halts := by rw [← hA']; exact id
  have hS : A'.Stops → A.Stops := by rw [← hA']; exact id
  rcases heuristic_full h.rep.wf d1 d2 hN (C := C) (A := A') h.ri with
    ⟨⟨Y, ok⟩, hY, hy1, hy2, hy3⟩ | ⟨_, hY⟩ | ⟨hi, hY⟩
  · rw [hY]
    have hin : Y.init = m.X.init := heuristicFor_init _ hY
    dsimp only at hy1 hy2 hy3 ⊢
    have hbest : ∀ {a : Prop}, (a → EInv m.p.P (fun _ q => q < m.p.P.nq) m.X.best) →
        a → EInv m.p.P (fun _ q => q < m.p.P.nq) Y.best := by
      intro a ha h'
      rcases hy3 with hg | ⟨_, he⟩
      · exact hg.best.inv
      · rw [he.1]; exact ha h'
    have hm : MInv I l0 { m with X := Y } :=
      ⟨h.ok, h.rep, h.n, h.nt, by dsimp only; rw [hin]; exact h.started, hy1.weak,
        fun hq => hbest h.quick hq, fun hq => hbest h.plain hq⟩
    have hno : ok = false → Good m.p.P (fun _ q => q < m.p.P.nq) Y ∨ Y.best = m.X.best ∧ A.Stops := by
      intro _
      rcases hy3 with hg | ⟨_, he⟩
      · exact Or.inl hg
      · exact Or.inr ⟨he.1, hS he.2⟩
    have hyes : ok = true → Good m.p.P (fun _ q => q < m.p.P.nq) Y := by
      intro ht
      rcases hy3 with hg | ⟨he, _⟩
      · exact hg
      · rw [ht] at he; simp at he
    by_cases hr : (ro || ok) = true
    · rw [if_pos hr]
      obtain ⟨t, cs, h1, h2⟩ := read_spec (m := { m with X := Y }) h.rep h.n
      rw [h1]
      have fl : ∀ {a : Prop}, Good m.p.P (fun _ q => q < m.p.P.nq) Y ∨ a →
          Good m.p.P (fun _ q => q < m.p.P.nq) { Y with S := { Y.S with tape := t } } ∨ a := by
        rintro a (hg | h')
        · exact Or.inl ⟨⟨hg.ri.vn, hg.ri.init, hg.ri.curr, hg.ri.best, hg.ri.last, hg.ri.ord⟩,
            hg.best.congr rfl rfl rfl⟩
        · exact Or.inr h'
      refine Goes.pure ⟨hm.tape t, rfl, rfl, rfl, Or.inr ⟨ok, cs, rfl, ?_, hy2.symm, ?_, fun _ => h2, ?_⟩⟩
      · intro ht; exact (fl (a := False) (Or.inl (hyes ht))).resolve_right id
      · intro hf; exact fl (hno hf)
      · intro h1 h2; rw [h1, h2] at hr; simp at hr
    · rw [if_neg hr]
      simp only [Bool.or_eq_true, not_or, Bool.not_eq_true] at hr
      refine Goes.pure ⟨hm, rfl, rfl, rfl, Or.inr ⟨ok, [], rfl, hyes, hy2.symm, hno, ?_, fun _ _ => rfl⟩⟩
      rintro (h' | h')
      · rw [hr.1] at h'; simp at h'
      · rw [hr.2] at h'; simp at h'
  · rw [hY]
    dsimp only
    unfold Run.refused
    have hcp := EInv.copy h.ri.curr.1 h.ri.curr.2 h.ri.init
    by_cases hs : A'.skipInit = true
    · rw [if_pos hs]
      have h0 := h.ri
      exact Goes.pure ⟨⟨h.ok, h.rep, h.n, h.nt, h.started, ⟨h0.vn, h0.init, h0.curr, h0.best, h0.last, h0.ord⟩,
        h.quick, h.plain⟩, rfl, rfl, rfl, Or.inl ⟨rfl, rfl⟩⟩
    · rw [if_neg hs]
      have hri : RI m.p.P (fun _ q => q < m.p.P.nq)
          { Run.resetMood A' m.X with curr := Emb.copy m.p.P (Run.resetMood A' m.X).curr (Run.resetMood A' m.X).init } :=
        ⟨h.ri.vn, h.ri.init, hcp.1, h.ri.best, h.ri.last, h.ri.ord⟩
      rcases initPass_spec h.rep.wf d1 d2 (C := C) (A := A') hri rfl with
        ⟨⟨Z, res⟩, hZ, k1, k2, _, _⟩ | ⟨hf, _⟩ | ⟨hi, hZ⟩
      · rw [hZ]
        dsimp only at k1 k2
        refine Goes.pure ⟨⟨h.ok, h.rep, h.n, h.nt, ?_, k1.weak, ?_, ?_⟩, rfl, rfl, rfl, Or.inl ⟨rfl, ?_⟩⟩
        · dsimp only; rw [k2]; exact h.started
        · dsimp only; rw [k2]; exact h.quick
        · dsimp only; rw [k2]; exact h.plain
        · dsimp only; rw [k2]; rfl
      · exact hf.elim
      · rw [hZ]
        exfalso
        unfold Run.heuristic Run.heuristicFor Run.start at hY
        dsimp only at hY
        rw [if_neg hs, hZ] at hY
        simp [bind, Except.bind] at hY
  · rw [hY]
    exact Or.inl ⟨rfl, hH hi⟩

/-! ### new initial chains -/

theorem setInitial_spec {m : Miner} (h : MInv I l0 m) {c : ChainMap} (hc : (I.restart c).OK) {i k : Prop}
    (hk : k ∨ ∀ kv ∈ c, Input.EntryOK I.src.n I.tgt.n m.p.comps kv) :
    Goes i k (m.setInitial c) (fun m' => MInv (I.restart c) l0 m' ∧ m'.p.P = m.p.P ∧
      m'.restricted = m.restricted ∧ m'.quick = m.quick ∧ m'.X.best = m.X.best) := by
  unfold Miner.setInitial
  rw [h.n, h.nt]
  have hinj : ∀ a b, a < I.src.n → b < I.src.n → m.p.screw a = m.p.screw b → a = b := by
    intro a b ha hb he
    rw [← h.rep.su a ha, ← h.rep.su b hb, he]
  rcases Input.inputChains_spec (nt := I.tgt.n) (C := m.p.comps) hinj hc.ikeys with ⟨h1, init, h2, h3⟩ | ⟨hno, hbad⟩
  · have hin : (I.restart c).initC = c := rfl
    rw [hin] at h1 h2 h3
    rw [h2]
    have hrep := h.rep.restart h3 h1
    have hio : InitOK m.p.P (fun _ q => q < m.p.P.nq) init := hrep.initOK hc
    obtain ⟨⟨E, t⟩, hE, e1, e2, e3, e4⟩ := construct_full (t := m.X.S.tape) h.rep.wf (dom_free m.p.P) hio
    simp only [bind, Except.bind, MM.bare]
    rw [hE]
    have hcp := copy_chains (P := m.p.P) (E := m.X.init) (other := E) h.ri.init.lab e1.lab
    have hst : Started m.p.P (fun _ q => q < m.p.P.nq) init (Emb.copy m.p.P m.X.init E) :=
      Started.congr h.rep.wf ⟨e1, e2, e3, e4⟩ hio.free hcp
    exact Goes.pure ⟨⟨hc, hrep, rfl, rfl, hst,
      ⟨h.ri.vn, hst.shape, h.ri.curr, h.ri.best, h.ri.last, h.ri.ord⟩, h.quick, h.plain⟩, rfl, rfl, rfl, rfl⟩
  · have hin : (I.restart c).initC = c := rfl
    rw [hin] at hbad hno
    rw [hbad]
    refine Or.inr ⟨Or.inl rfl, hk.resolve_right ?_⟩
    intro hall
    obtain ⟨kv, hkv, hk⟩ := hno
    exact hk (hall kv hkv)

/-! ### greedy passes -/

/-- What a greedy pass leaves. -/
structure MPassed (I : Input) (l0 : List Nat) (K : Quick) (m m' : Miner) (r : Reply) : Prop where
  inv : MInv I l0 m'
  p : m'.p = m.p
  restr : m'.restricted = m.restricted
  init : m'.X.init = m.X.init
  reply : (r = .unknown ∨ r = .raised .badInit) ∧ m'.X.best = m.X.best ∨
    ∃ cs order E, r = .chains cs ∧ AllHanded I m'.p l0 m'.X.best cs ∧
      EInv m'.p.P (fun _ q => q < m'.p.P.nq) m'.X.best ∧
      EInv m'.p.P (fun _ q => q < m'.p.P.nq) E ∧
      (K.clear = false → m.quick = true → E = m.X.best) ∧
      (K.clear = true ∨ m.quick = false → ∀ v, v < m'.p.P.N → E.chains v = m.X.init.chains v) ∧
      (∀ u ∈ order, u < m'.p.P.nv) ∧ Passed m'.p.P K order E m'.X.best

theorem pass_any (wf : P.WF) (hR : Dom P R) (he : P.Even) {C : Cfg} {K : Quick} {order : List Nat} {X : Run}
    (hord : ∀ u ∈ order, u < P.nv) (hK : K.near = false) (hb : Base P X.best) (hi : X.init.Shape P R)
    (hS : VnOK P X.S) (hB : K.clear = true ∨ EInv P R X.best) :
    Ok (Quick.pass P C K order X) (fun Y => VnOK P Y.S ∧ EInv P R Y.best ∧ Y = { X with best := Y.best, S := Y.S } ∧
      ∃ E, EInv P R E ∧ (K.clear = true → ∀ v, v < P.N → E.chains v = X.init.chains v) ∧
        (K.clear = false → E = X.best) ∧ Passed P K order E Y.best) := by
  unfold Quick.pass
  obtain ⟨c1, c2⟩ := EInv.copy (R := R) hb.1 hb.2 hi
  by_cases hc : K.clear = true
  · rw [if_pos hc]
    refine Ok.bind (loop_spec wf hR he hord c1 hS (fun h => by rw [hK] at h; simp at h)) ?_
    rintro ⟨E, S⟩ ⟨a1, a2, a3⟩
    exact Ok.pure ⟨a1, a2, rfl, _, c1, fun _ => c2, fun h => by rw [hc] at h; simp at h, a3⟩
  · rw [if_neg hc]
    have hE := hB.resolve_left hc
    refine Ok.bind (loop_spec wf hR he hord hE hS (fun h => by rw [hK] at h; simp at h)) ?_
    rintro ⟨E, S⟩ ⟨a1, a2, a3⟩
    exact Ok.pure ⟨a1, a2, rfl, _, hE, fun h => absurd h hc, fun _ => rfl, a3⟩

theorem MInv.drop {m : Miner} (h : MInv I l0 m) : MInv I l0 { m with quick := false } :=
  ⟨h.ok, h.rep, h.n, h.nt, h.started, h.ri, fun hc => by simp at hc, h.plain⟩

theorem greedy_spec {m : Miner} (h : MInv I l0 { m with quick := false }) (hc : I.Compatible) {C : Cfg} {K : Quick}
    (hK : K.near = false) (hB : K.clear = true ∨ EInv m.p.P (fun _ q => q < m.p.P.nq) m.X.best)
    {order : List Nat} (ho : ∀ u ∈ order, u < m.p.P.nv) {i k : Prop} :
    Goes i k (m.greedy C K order) (fun s => MInv I l0 s.1 ∧ s.1.p = m.p ∧ s.1.restricted = m.restricted ∧
      s.1.X.init = m.X.init ∧ s.1.quick = m.quick ∧
      ∃ cs E, s.2 = .chains cs ∧ AllHanded I s.1.p l0 s.1.X.best cs ∧
        EInv s.1.p.P (fun _ q => q < s.1.p.P.nq) s.1.X.best ∧ EInv s.1.p.P (fun _ q => q < s.1.p.P.nq) E ∧
        (K.clear = true → ∀ v, v < s.1.p.P.N → E.chains v = m.X.init.chains v) ∧
        (K.clear = false → E = m.X.best) ∧ Passed s.1.p.P K order E s.1.X.best) := by
  unfold Miner.greedy
  refine Goes.bind (pass_any (C := C) h.rep.wf (dom_free m.p.P) (h.even hc) ho hK h.ri.best h.ri.init h.ri.vn hB).goes ?_
  rintro Y ⟨y1, y2, y3, E, e1, e2, e3, e4⟩
  obtain ⟨t, cs, h1, h2⟩ := read_spec (m := { m with X := Y }) h.rep h.n
  rw [h1]
  have hin : Y.init = m.X.init := by rw [y3]
  refine Goes.pure ⟨⟨h.ok, h.rep, h.n, h.nt, ?_, ⟨y1, ?_, ?_, y2.base, ?_, ?_⟩, fun _ => y2, fun _ => y2⟩,
    rfl, rfl, hin, rfl, cs, E, rfl, h2, y2, e1, e2, e3, e4⟩
  · dsimp only; rw [hin]; exact h.started
  · dsimp only; rw [hin]; exact h.ri.init
  · dsimp only; rw [y3]; exact h.ri.curr
  · dsimp only; rw [y3]; exact h.ri.last
  · dsimp only; rw [y3]; exact h.ri.ord

/-- Calls of `quickpass` for which the pass is defined: no local search; a listed node
without fixed chain comes before all nodes with one. With fixed chains also: labels are
known, the order is not an earlier one, and some node has no fixed chain. -/
def Spec.QuickOK (I : Input) (K : Quick) : Sequence → Prop
  | .unknown => I.fixedC = []
  | .listed vs => K.near = false ∧ (∀ v ∈ vs, 0 ≤ v ∧ v < (I.src.n : Int)) ∧
      ∀ v ∈ vs, ¬ I.FixV v.toNat → ∀ w, I.FixV w → v.toNat < w
  | .strategy o => K.near = false ∧ (I.fixedC = [] ∨ o ≠ .keep ∧ ∃ v, v < I.src.n ∧ ¬ I.FixV v)

theorem orderBy_weak (wf : P.WF) {o : VarOrder} {X : Run} (h : RI0 P R X) :
    Ok (Run.orderBy P o X) (fun X' => RI0 P R X' ∧ (∃ l t, X' = { X with order := l, S := { X.S with tape := t } }) ∧
      (o ≠ .keep → X'.order.Perm (List.range P.nv)) ∧ (o = .keep → X'.order = X.order)) := by
  unfold Run.orderBy
  refine Ok.bind (varOrder_spec (h.vn.nbr wf)) ?_
  rintro ⟨l, t⟩ ⟨h1, h2⟩
  refine Ok.pure ⟨⟨h.vn, h.init, h.curr, h.best, h.last, ?_⟩, ⟨l, t, rfl⟩, h1, h2⟩
  intro u hu
  by_cases ho : o = .keep
  · have := h2 ho
    dsimp only at this hu
    rw [this] at hu; exact h.ord u hu
  · exact List.mem_range.1 ((h1 ho).mem_iff.1 hu)

theorem MInv.reorder {m : Miner} (h : MInv I l0 m) {l : List Nat} {t : Tape}
    (hr : RI0 m.p.P (fun _ q => q < m.p.P.nq) { m.X with order := l, S := { m.X.S with tape := t } }) :
    MInv I l0 { m with X := { m.X with order := l, S := { m.X.S with tape := t } } } :=
  ⟨h.ok, h.rep, h.n, h.nt, h.started, hr, h.quick, h.plain⟩

theorem quickpass_spec {m : Miner} (h : MInv I l0 m) (hc : I.Compatible) {C : Cfg} {K : Quick} {s : Sequence}
    (hs : Spec.QuickOK I K s) {i k : Prop} :
    Goes i k (m.quickpass C K s) (fun r => MPassed I l0 K m r.1 r.2) := by
  unfold Miner.quickpass
  dsimp only
  generalize hK' : (if m.quick then K else { K with clear := true }) = K'
  have kn : K'.near = K.near := by rw [← hK']; split <;> rfl
  have kl : K'.length = K.length := by rw [← hK']; split <;> rfl
  have ko : K'.overlap = K.overlap := by rw [← hK']; split <;> rfl
  have kc : K'.clear = true ↔ K.clear = true ∨ m.quick = false := by
    rw [← hK']
    cases m.quick <;> simp
  have hB : K'.clear = true ∨ EInv m.p.P (fun _ q => q < m.p.P.nq) m.X.best := by
    cases hq : m.quick with
    | true => exact Or.inr (h.quick hq)
    | false => exact Or.inl (kc.2 (Or.inr hq))
  have h0 := h.drop
  have pk : ∀ {order : List Nat} {E E' : Emb}, Passed m.p.P K' order E E' → Passed m.p.P K order E E' := by
    intro order E E' hp
    refine ⟨hp.ne, hp.own, hp.others, ?_, ?_, ?_⟩
    · rw [← kl]; exact hp.size
    · rw [← kl]; exact hp.sizes
    · rw [← ko]; exact hp.fill
  have run : ∀ (X : Run) (order : List Nat), MInv I l0 { m with X := X, quick := false } → X.best = m.X.best →
      X.init = m.X.init → K.near = false → (∀ u ∈ order, u < m.p.P.nv) →
      Goes i k (Miner.greedy C K' order { m with X := X, quick := true }) (fun r => MPassed I l0 K m r.1 r.2) := by
    intro X order hX hb hin hn ho
    refine (greedy_spec (m := { m with X := X, quick := true }) (C := C) (K := K') hX hc (kn.trans hn)
      (hB.imp_right (fun hE => by dsimp only; rw [hb]; exact hE)) ho).mono ?_
    rintro ⟨m', r⟩ ⟨g1, g2, g3, g4, g5, cs, E, g6, g7, g8, g9, g10, g11, g12⟩
    dsimp only at *
    refine ⟨g1, g2, g3, g4.trans hin, Or.inr ⟨cs, order, E, g6, g7, g8, g9, ?_, ?_, ?_, ?_⟩⟩
    · intro h1 h2
      rw [← hb]
      refine g11 ?_
      cases hk : K'.clear with
      | false => rfl
      | true =>
        rcases kc.1 hk with h' | h'
        · rw [h1] at h'; simp at h'
        · rw [h2] at h'; simp at h'
    · intro h1
      rw [← hin]
      exact g10 (kc.2 h1)
    · rw [g2]; exact ho
    · rw [g2] at g12 ⊢; exact pk g12
  cases s with
  | unknown =>
    exact Goes.pure ⟨⟨h.ok, h.rep, h.n, h.nt, h.started, h.ri, fun _ => h.plain hs, h.plain⟩, rfl, rfl, rfl,
      Or.inl ⟨Or.inl rfl, rfl⟩⟩
  | listed vs =>
    obtain ⟨s1, s2, s3⟩ := hs
    dsimp only
    rw [h.n, inputVars_spec s2]
    dsimp only
    rw [← h.n]
    refine run m.X _ h0 rfl rfl s1 ?_
    intro u hu
    rw [List.mem_filter, List.mem_map] at hu
    obtain ⟨⟨v, hv, rfl⟩, hf⟩ := hu
    have hfv : ¬ I.FixV v.toNat := by
      intro hc
      rw [(h.rep.fxv v.toNat).2 hc] at hf; simp at hf
    have h1 := s2 v hv
    have h2 := h.rep.screw_id (v := v.toNat) (by omega) (s3 v hv hfv)
    by_contra hc
    exact hfv ((h.rep.fixed _ (by omega)).1 (by omega))
  | strategy o =>
    obtain ⟨s1, s2⟩ := hs
    dsimp only
    refine Goes.bind (orderBy_weak (o := o) h.rep.wf h.ri).goes ?_
    rintro X ⟨x1, ⟨l, t, x2⟩, x3, _⟩
    have hm : MInv I l0 { m with X := X } := by
      rw [x2] at x1 ⊢
      exact h.reorder x1
    by_cases he : X.order = []
    · rw [if_pos he]
      have hf : I.fixedC = [] := by
        rcases s2 with s2 | ⟨hk, v, hv, hf⟩
        · exact s2
        · exfalso
          have hlen := (x3 hk).length_eq
          rw [he] at hlen
          have : m.p.P.nv = 0 := by simpa using hlen.symm
          exact hf ((h.rep.fixed v hv).1 (by omega))
      refine Goes.pure ⟨⟨hm.ok, hm.rep, hm.n, hm.nt, hm.started, hm.ri, fun _ => hm.plain hf, hm.plain⟩, rfl, rfl, ?_,
        Or.inl ⟨Or.inr rfl, ?_⟩⟩
      · rw [x2]
      · rw [x2]
    · rw [if_neg he]
      exact run X _ hm.drop (by rw [x2]) (by rw [x2]) s1 x1.ord

theorem greedy_known {m : Miner} {C : Cfg} {K : Quick} {order : List Nat} {s : Miner × Reply}
    (h : m.greedy C K order = .ok s) : s.2 ≠ .unknown := by
  unfold Miner.greedy at h
  simp only [bind, Except.bind] at h
  split at h
  · simp at h
  · split at h
    · simp at h
    · simp only [Except.ok.injEq] at h
      rw [← h]; simp

theorem quickpass_known {m : Miner} {C : Cfg} {K : Quick} {q : Sequence} {s : Miner × Reply}
    (h : m.quickpass C K q = .ok s) (hs : s.2 = .unknown) : q = .unknown := by
  unfold Miner.quickpass at h
  dsimp only at h
  cases q with
  | unknown => rfl
  | listed vs =>
    dsimp only at h
    split at h
    · simp only [Except.ok.injEq] at h
      rw [← h] at hs; simp at hs
    · exact absurd hs (greedy_known h)
  | strategy o =>
    simp only [bind, Except.bind] at h
    split at h
    · simp at h
    · split at h
      · simp only [Except.ok.injEq] at h
        rw [← h] at hs; simp at hs
      · exact absurd hs (greedy_known h)

/-! ### histories -/

/-- Calls a program may make: greedy passes that are defined, and initial chains as for a
new search. -/
def Spec.CallOK (I : Input) : Call → Prop
  | .find => True
  | .quick _ K s => Spec.QuickOK I K s
  | .initial c => (I.restart c).OK

/-- The call brings new initial chains. -/
def Call.next (I : Input) : Call → Input
  | .initial c => I.restart c
  | _ => I

theorem Spec.CallOK.restart {c : Call} {d : ChainMap} (h : Spec.CallOK I c) : Spec.CallOK (I.restart d) c := by
  cases c with
  | find => trivial
  | quick C K s => cases s <;> exact h
  | initial c => exact h

/-- The target is connected and the chains of the call name source and target nodes. -/
def Spec.Tame (I : Input) : Call → Prop
  | .initial c => Spec.OnePiece I.tgt ∧ Spec.Usable I c
  | _ => True

theorem Spec.Tame.restart {c : Call} {d : ChainMap} (h : Spec.Tame I c) : Spec.Tame (I.restart d) c := by
  cases c <;> exact h

/-- What one call does. -/
inductive Did (I : Input) (l0 : List Nat) (A : Params) (ro : Bool) (m m' : Miner) : Call → Reply → Prop
  | find {r : Reply} : MSearched I l0 A ro m m' r → Did I l0 A ro m m' .find r
  | quick {C : Cfg} {K : Quick} {s : Sequence} {r : Reply} : MPassed I l0 K m m' r → (r = .unknown → s = .unknown) →
      Did I l0 A ro m m' (.quick C K s) r
  | initial {c : ChainMap} : MInv (I.restart c) l0 m' → m'.p.P = m.p.P → m'.restricted = m.restricted →
      m'.quick = m.quick → m'.X.best = m.X.best → Did I l0 A ro m m' (.initial c) .done

theorem call_spec {m : Miner} (h : MInv I l0 m) (hc : I.Compatible) {C : Cfg} {A : Params} {ro : Bool} {c : Call}
    (hk : Spec.CallOK I c) {k : Prop} (hu : k ∨ Spec.Tame I c) :
    Goes A.Halts k (m.call C A ro c) (fun s => Did I l0 A ro m s.1 c s.2) := by
  cases c with
  | find => exact (find_spec h hc C A ro).weak.mono (fun _ hs => .find hs)
  | quick C' K s =>
    exact (quickpass_spec (C := C') h hc hk).kept.mono (fun _ hs => .quick hs.1 (quickpass_known hs.2))
  | initial c =>
    unfold Miner.call
    dsimp only
    refine Goes.bind (setInitial_spec h hk (hu.imp_right (fun hu => h.entries hu.1 hu.2))) ?_
    rintro m' ⟨h1, h2, h3, h4, h5⟩
    exact Goes.pure (.initial h1 h2 h3 h4 h5)

theorem Did.inv {A : Params} {m m' : Miner} {ro : Bool} {c : Call} {r : Reply} (h : Did I l0 A ro m m' c r) :
    MInv (c.next I) l0 m' := by
  cases h with
  | find h => exact h.inv
  | quick h _ => exact h.inv
  | initial h _ _ _ _ => exact h

/-- A chain of calls with their replies. -/
inductive Trace (l0 : List Nat) (A : Params) (ro : Bool) : Input → Miner → List Call → List Reply → Miner → Prop
  | nil {I : Input} {m : Miner} : Trace l0 A ro I m [] [] m
  | cons {I : Input} {m m' m'' : Miner} {c : Call} {r : Reply} {cs : List Call} {rs : List Reply} :
      Did I l0 A ro m m' c r → Trace l0 A ro (c.next I) m' cs rs m'' → Trace l0 A ro I m (c :: cs) (r :: rs) m''

theorem calls_spec {C : Cfg} {A : Params} {ro : Bool} : ∀ {cs : List Call} {I : Input} {m : Miner},
    MInv I l0 m → I.Compatible → (∀ c ∈ cs, Spec.CallOK I c) → ∀ {k : Prop}, (k ∨ ∀ c ∈ cs, Spec.Tame I c) →
    Goes A.Halts k (m.calls C A ro cs) (fun s => Trace l0 A ro I m cs s.2 s.1 ∧ ∃ J, MInv J l0 s.1) := by
  intro cs
  induction cs with
  | nil => intro I m h _ _ k _; exact Goes.pure ⟨.nil, I, h⟩
  | cons c cs ih =>
    intro I m h hc hk k hu
    unfold Miner.calls
    refine Goes.bind (call_spec h hc (hk c (by simp)) (hu.imp_right (fun hu => hu c (by simp)))) ?_
    rintro ⟨m1, r⟩ h1
    dsimp only at h1 ⊢
    have hc' : (c.next I).Compatible := by cases c <;> exact hc
    have hk' : ∀ d ∈ cs, Spec.CallOK (c.next I) d := by
      intro d hd
      have := hk d (by simp [hd])
      cases c with
      | find => exact this
      | quick _ _ _ => exact this
      | initial c => exact this.restart
    have hu' : k ∨ ∀ d ∈ cs, Spec.Tame (c.next I) d := by
      refine hu.imp_right (fun hu d hd => ?_)
      have := hu d (by simp [hd])
      cases c with
      | find => exact this
      | quick _ _ _ => exact this
      | initial c => exact this.restart
    refine Goes.bind (ih h1.inv hc' hk' hu') ?_
    rintro ⟨m2, rs⟩ ⟨h2, h3⟩
    exact Goes.pure ⟨.cons h1 h2, h3⟩

end MM
