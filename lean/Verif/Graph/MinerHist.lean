import Verif.Graph.MinerInv
import Verif.Graph.Restart

/-! What the caller of a `miner` sees. -/

namespace MM

open Relation
open Scratch (Cfg)

variable {R : Nat → Nat → Prop} {E : Emb} {I : Input} {p : Proc} {l0 : List Nat}

namespace Spec

/-- A list of distinct target nodes for every source node. -/
def Lists (I : Input) (cs : List (List Nat)) : Prop :=
  cs.length = I.src.n ∧ ∀ c ∈ cs, c.Nodup ∧ ∀ q ∈ c, q < I.tgt.n

/-- Two source nodes share a target node. -/
def Overlaps (cs : List (List Nat)) : Prop :=
  ∃ (u v : Nat) (c d : List Nat) (q : Nat), u ≠ v ∧ cs[u]? = some c ∧ cs[v]? = some d ∧ q ∈ c ∧ q ∈ d

/-- Fixed chains are among the lists. -/
def Keeps (I : Input) (cs : List (List Nat)) : Prop :=
  ∀ kv ∈ I.fixedC, ∃ c, cs[kv.1.toNat]? = some c ∧ ∀ q : Nat, q ∈ c ↔ (q : Int) ∈ kv.2

/-- Replies that make sense for a call. -/
def Answers (I : Input) (ro : Bool) : Call → Reply → Prop
  | .find, .found true cs => EmbedsUpTo I.FixV I.src I.tgt cs ∧ Keeps I cs
  | .find, .found false cs => (ro = true → Lists I cs) ∧ (ro = false → cs = [])
  | .find, .raised e => e = .badInit
  | .quick _ _ _, .chains cs => Lists I cs ∧ Keeps I cs
  | .quick _ _ _, .raised e => e = .badInit
  | .quick _ _ .unknown, .unknown => True
  | .initial _, .done => True
  | _, _ => False

end Spec

theorem AllHanded.lists (h : p.Rep I l0) {cs : List (List Nat)} (hc : AllHanded I p l0 E cs) : Spec.Lists I cs := by
  refine ⟨hc.1, fun c hm => ?_⟩
  obtain ⟨u, hu⟩ := List.getElem?_of_mem hm
  have := hc.2 u c hu
  refine ⟨this.1, fun q hq => ?_⟩
  obtain ⟨j, hj, _⟩ := (this.2 q).1 hq
  exact (h.place j q hj).1

theorem AllHanded.overlaps (h : p.Rep I l0) {cs : List (List Nat)} (hc : AllHanded I p l0 E cs) {q : Nat}
    (hq : q < p.P.nq) (hf : 1 < E.fill p.P q) : Spec.Overlaps cs := by
  by_contra hno
  have : E.fill p.P q ≤ 1 := by
    unfold Emb.fill
    apply cnt_unique
    intro i j hi hj hqi hqj
    rw [h.hN] at hi hj
    obtain ⟨u1, u2⟩ := h.us i hi
    obtain ⟨v1, v2⟩ := h.us j hj
    have hql : q < l0.length := by rw [← h.hQ]; unfold Prob.Q; omega
    obtain ⟨x, hx⟩ := getElem?_lt hql
    have hul : p.unscrew i < cs.length := by rw [hc.1]; exact u1
    have hvl : p.unscrew j < cs.length := by rw [hc.1]; exact v1
    have hcu := hc.2 _ _ (List.getElem?_eq_getElem hul)
    have hcv := hc.2 _ _ (List.getElem?_eq_getElem hvl)
    have m1 := (hcu.2 x).2 ⟨q, hx, by rw [u2]; exact hqi⟩
    have m2 := (hcv.2 x).2 ⟨q, hx, by rw [v2]; exact hqj⟩
    by_contra hij
    have hne : p.unscrew i ≠ p.unscrew j := by
      intro hc; apply hij; rw [← u2, ← v2, hc]
    exact hno ⟨_, _, _, _, x, hne, List.getElem?_eq_getElem hul, List.getElem?_eq_getElem hvl, m1, m2⟩
  omega

theorem AllHanded.keeps (h : p.Rep I l0) (hI : I.OK) (hE : EInv p.P R E) {cs : List (List Nat)}
    (hc : AllHanded I p l0 E cs) : Spec.Keeps I cs := by
  intro kv hkv
  have hlt : kv.1.toNat < cs.length := by rw [hc.1]; have := hI.frange kv hkv; omega
  exact ⟨_, List.getElem?_eq_getElem hlt, h.fixed_chain hI hE hkv (hc.2 _ _ (List.getElem?_eq_getElem hlt))⟩

/-! ### one call -/

theorem MSearched.valid {A : Params} {ro : Bool} {m m' : Miner} {cs : List (List Nat)}
    (h : MSearched I l0 A ro m m' (.found true cs)) : Spec.EmbedsUpTo I.FixV I.src I.tgt cs := by
  obtain ⟨h1, h2, h3, h4, h5⟩ := h
  rcases h5 with ⟨hc, _⟩ | ⟨ok, cs', hr, h6, h7, h8, h9, h10⟩
  · simp at hc
  · simp only [Reply.found.injEq] at hr
    obtain ⟨rfl, rfl⟩ := hr
    have hg := h6 rfl
    have hh := h9 (Or.inr rfl)
    exact h1.rep.success h1.ok hg.best.inv hg.best.full (hg.best.st.flag.1 h7) hh.1 hh.2

theorem MSearched.answers {A : Params} {ro : Bool} {m m' : Miner} {r : Reply} (h : MSearched I l0 A ro m m' r) :
    Spec.Answers I ro .find r := by
  have h0 := h
  obtain ⟨h1, h2, h3, h4, h5⟩ := h
  rcases h5 with ⟨rfl, _⟩ | ⟨ok, cs', rfl, h6, h7, h8, h9, h10⟩
  · rfl
  · cases ok with
    | true => exact ⟨h0.valid, (h9 (Or.inr rfl)).keeps h1.rep h1.ok (h6 rfl).best.inv⟩
    | false =>
      refine ⟨fun hr => (h9 (Or.inl hr)).lists h1.rep, fun hr => h10 hr rfl⟩

/-- Without stops a failure shows overlapping chains. -/
theorem MSearched.overlaps {A : Params} (hA : ¬ A.Stops) {m m' : Miner} {cs : List (List Nat)}
    (h : MSearched I l0 A true m m' (.found false cs)) : Spec.Overlaps cs := by
  obtain ⟨h1, h2, h3, h4, h5⟩ := h
  rcases h5 with ⟨hc, _⟩ | ⟨ok, cs', hr, h6, h7, h8, h9, h10⟩
  · simp at hc
  · simp only [Reply.found.injEq] at hr
    obtain ⟨rfl, rfl⟩ := hr
    rcases h8 rfl with hg | ⟨_, hs⟩
    · obtain ⟨a1, a2, q, hq, hq2⟩ := hg.best.st.over h7
      refine (h9 (Or.inl rfl)).overlaps h1.rep hq ?_
      have : 0 < m'.X.stats.length := List.length_pos_iff.2 a2
      rw [hq2]; dsimp only; omega
    · exact absurd hs hA

theorem MPassed.answers {C : Cfg} {K : Quick} {s : Sequence} {ro : Bool} {m m' : Miner} {r : Reply}
    (h : MPassed I l0 K m m' r) (hu : r = .unknown → s = .unknown) : Spec.Answers I ro (.quick C K s) r := by
  obtain ⟨h1, h2, h3, h4, h5⟩ := h
  rcases h5 with ⟨rfl | rfl, _⟩ | ⟨cs, order, E, rfl, h6, h7, _⟩
  · rw [hu rfl]; trivial
  · cases s <;> rfl
  · cases s <;> exact ⟨h6.lists h1.rep, h6.keeps h1.rep h1.ok h7⟩

theorem Did.answers {A : Params} {ro : Bool} {m m' : Miner} {c : Call} {r : Reply} (h : Did I l0 A ro m m' c r) :
    Spec.Answers I ro c r := by
  cases h with
  | find h => exact h.answers
  | quick h hu => exact h.answers hu
  | initial => trivial

theorem Spec.Answers.next {ro : Bool} {c d : Call} {r : Reply} (h : Spec.Answers (d.next I) ro c r) :
    Spec.Answers I ro c r := by
  cases d with
  | find => exact h
  | quick _ _ _ => exact h
  | initial e =>
    cases c with
    | find => cases r with
      | found ok cs => cases ok <;> exact h
      | _ => exact h
    | quick _ _ s => cases r <;> cases s <;> exact h
    | initial _ => cases r <;> exact h

/-! ### histories -/

theorem Trace.length {A : Params} {ro : Bool} {m m' : Miner} {cs : List Call} {rs : List Reply}
    (h : Trace l0 A ro I m cs rs m') : rs.length = cs.length := by
  induction h with
  | nil => rfl
  | cons _ _ ih => simp [ih]

theorem Trace.answers {A : Params} {ro : Bool} {m m' : Miner} {cs : List Call} {rs : List Reply}
    (h : Trace l0 A ro I m cs rs m') : ∀ (i : Nat) (c : Call) (r : Reply), cs[i]? = some c → rs[i]? = some r →
    Spec.Answers I ro c r := by
  induction h with
  | nil => intro i c r hc; simp at hc
  | cons hd _ ih =>
    intro i c r hc hr
    cases i with
    | zero =>
      simp only [List.getElem?_cons_zero, Option.some.injEq] at hc hr
      subst hc; subst hr
      exact hd.answers
    | succ i =>
      simp only [List.getElem?_cons_succ] at hc hr
      exact (ih i c r hc hr).next

theorem Trace.overlaps {A : Params} (hA : ¬ A.Stops) {m m' : Miner} {cs : List Call} {rs : List Reply}
    (h : Trace l0 A true I m cs rs m') : ∀ (i : Nat) (ds : List (List Nat)), rs[i]? = some (.found false ds) →
    Spec.Overlaps ds := by
  induction h with
  | nil => intro i ds hr; simp at hr
  | cons hd _ ih =>
    intro i ds hr
    cases i with
    | zero =>
      simp only [List.getElem?_cons_zero, Option.some.injEq] at hr
      subst hr
      cases hd with
      | find h => exact h.overlaps hA
      | quick h _ =>
        rcases h.reply with ⟨h' | h', _⟩ | ⟨_, _, _, h', _⟩ <;> simp at h'
    | succ i =>
      simp only [List.getElem?_cons_succ] at hr
      exact ih i ds hr

/-- A new object and some calls. -/
theorem session_spec {sort : List (List Nat) → List (List Nat)} (hs : SortOK sort) (hI : I.OK) (hc : I.Compatible)
    {cs : List Call} (hk : ∀ c ∈ cs, Spec.CallOK I c) (C : Cfg) (A : Params) (ro : Bool) (t : Tape) :
    Goes A.Halts True (session sort C A ro I cs t) (fun rs => ∃ l0 m m', MInv I l0 m ∧ m.quick = false ∧
      m.X.best = Emb.empty ∧ Trace l0 A ro I m cs rs m') := by
  unfold session
  refine Goes.bind (make_spec hs hI t) ?_
  rintro m ⟨⟨l0, h1⟩, h2, h3, h4⟩
  refine Goes.bind (calls_spec h1 hc hk (Or.inl trivial)) ?_
  rintro ⟨m', rs⟩ ⟨h5, _⟩
  exact Goes.pure ⟨l0, m, m', h1, h2, h3, h5⟩

/-- With a connected target and chains that name existing nodes. -/
theorem session_tame {sort : List (List Nat) → List (List Nat)} (hs : SortOK sort) (hI : I.OK) (hc : I.Compatible)
    {cs : List Call} (hk : ∀ c ∈ cs, Spec.CallOK I c) (ho : Spec.OnePiece I.tgt)
    (hu : Spec.Usable I (I.fixedC ++ I.initC ++ I.restrC)) (ht : ∀ c ∈ cs, Spec.Tame I c)
    {C : Cfg} {A : Params} {ro : Bool} {t : Tape} {e : Halt} (he : session sort C A ro I cs t = .error e) :
    e = .interrupted ∧ A.Halts ∨ e = .terminated .small := by
  unfold session at he
  have h1 := make_spec hs hI (i := A.Halts) t
  have h2 := make_usable hs hI ho hu t
  simp only [bind, Except.bind] at he
  cases hm : Miner.make sort I t with
  | error e' =>
    rw [hm] at h1 h2 he
    cases he
    rcases h1 with h1 | ⟨rfl | h1, _⟩
    · exact Or.inl h1
    · exact absurd rfl h2
    · exact Or.inr h1
  | ok m =>
    rw [hm] at h1 he
    obtain ⟨⟨l0, h1⟩, _⟩ := h1
    have h3 := calls_spec (A := A) (C := C) (ro := ro) h1 hc hk (k := False) (Or.inr ht)
    dsimp only at he
    cases hl : m.calls C A ro cs with
    | error e' =>
      rw [hl] at h3 he
      cases he
      rcases h3 with h3 | ⟨_, h3⟩
      · exact Or.inl h3
      · exact h3.elim
    | ok s => rw [hl] at he; cases he

/-! ### restarts -/

/-- A search of a `miner` whose initial chains are an embedding. -/
theorem find_restart {m : Miner} (h : MInv I l0 m) (hc : I.Compatible) {ds : List (List Nat)}
    (hv : Spec.EmbedsUpTo I.FixV I.src I.tgt ds) (hd : Spec.StartsWith I ds) (C : Cfg) (A : Params) (ro : Bool) :
    Goes A.Halts False (m.find C A ro) (fun s => (∃ cs, s.2 = .found true cs ∧ Spec.EmbedsUpTo I.FixV I.src I.tgt cs ∧
      Spec.NoLonger cs ds) ∨ ((∃ cs, s.2 = .found false cs) ∧ A.Stops)) := by
  unfold Miner.find
  dsimp only
  generalize hA' : { A with restricted := m.restricted } = A'
  have hH : A'.Halts → A.Halts := by rw [← hA']; exact id
  have hS : ∀ n, A'.stops n = A.stops n := by rw [← hA']; exact fun _ => rfl
  rcases h.rep.restart_run h.ok (h.even hc) h.ri h.started hv hd C A' with ⟨⟨Y, ok⟩, hY, hy⟩ | ⟨hf, _⟩ | ⟨hi, hY⟩
  · rw [hY]
    dsimp only at hy ⊢
    by_cases hr : (ro || ok) = true
    · rw [if_pos hr]
      obtain ⟨t, cs, h1, h2⟩ := read_spec (m := { m with X := Y }) h.rep h.n
      rw [h1]
      refine Goes.pure ?_
      rcases hy with ⟨rfl, hy⟩ | ⟨rfl, hy⟩
      · exact Or.inl ⟨cs, rfl, hy cs h2.1 h2.2⟩
      · refine Or.inr ⟨⟨cs, rfl⟩, m.X.clock, ?_⟩
        rw [← hS]; exact hy
    · rw [if_neg hr]
      simp only [Bool.or_eq_true, not_or, Bool.not_eq_true] at hr
      refine Goes.pure ?_
      rcases hy with ⟨rfl, hy⟩ | ⟨rfl, hy⟩
      · simp at hr
      · refine Or.inr ⟨⟨[], rfl⟩, m.X.clock, ?_⟩
        rw [← hS]; exact hy
  · exact hf.elim
  · rw [hY]
    exact Or.inl ⟨rfl, hH hi⟩

theorem getChains_getAll (p : Proc) (E : Emb) : ∀ (us : List Nat) (t : Tape),
    p.getChains E us t = (p.getAll E us t).map Prod.fst := by
  intro us
  induction us with
  | nil => intro t; rfl
  | cons u us ih =>
    intro t
    unfold Proc.getChains Proc.getAll
    cases hc : p.getChain E u t with
    | error e => rfl
    | ok r =>
      obtain ⟨c, t1⟩ := r
      simp only [bind, Except.bind]
      rw [ih t1]
      cases p.getAll E us t1 <;> rfl

/-- One search of a new `miner` is one call of the function. -/
theorem session_find {sort : List (List Nat) → List (List Nat)} {C : Cfg} {A : Params} {ro : Bool} {t : Tape}
    (ok : Bool) (cs : List (List Nat)) :
    session sort C A ro I [.find] t = .ok [.found ok cs] ↔ findEmbedding sort C A ro I t = .ok (ok, cs) := by
  unfold session Miner.make Miner.calls Miner.call Miner.find findEmbedding
  cases hp : I.process sort with
  | error e => cases e <;> simp [bind, Except.bind, bare]
  | ok p =>
    simp only [bind, Except.bind, bare]
    cases hX : Run.new p.P p.init t with
    | error e => cases e <;> simp
    | ok X =>
      dsimp only
      cases hY : Run.heuristic p.P C { A with restricted := !I.restrC.isEmpty } X with
      | error e =>
        cases e <;> dsimp only <;> try simp
        cases hr : Run.refused p.P C { A with restricted := !I.restrC.isEmpty } X with
        | error e => cases e <;> simp
        | ok Z => simp [Miner.calls]
      | ok Y =>
        obtain ⟨Y, ok'⟩ := Y
        dsimp only
        by_cases hr : (ro || ok') = true
        · rw [if_pos hr, if_pos hr, getChains_getAll]
          unfold Miner.read
          dsimp only [bind, Except.bind]
          cases hg : p.getAll Y.best (List.range I.src.n) Y.S.tape with
          | error e => cases e <;> simp [Except.map, bare]
          | ok r => simp [Except.map, bare, Miner.calls]
        · rw [if_neg hr, if_neg hr]
          simp [Miner.calls]

/-- A call of the function whose initial chains are an embedding. -/
theorem findEmbedding_restart {sort : List (List Nat) → List (List Nat)} (hs : SortOK sort) (hI : I.OK)
    (hc : I.Compatible) {ds : List (List Nat)} (hv : Spec.EmbedsUpTo I.FixV I.src I.tgt ds)
    (hd : Spec.StartsWith I ds) (C : Cfg) (A : Params) (ro : Bool) (t : Tape) :
    (∃ cs, findEmbedding sort C A ro I t = .ok (true, cs) ∧ Spec.EmbedsUpTo I.FixV I.src I.tgt cs ∧
      Spec.NoLonger cs ds) ∨
    (∃ cs, findEmbedding sort C A ro I t = .ok (false, cs) ∧ ((A.stops 0).1 = true ∨ (A.stops 0).2 = true)) ∨
    (findEmbedding sort C A ro I t = .error .cancelled ∧ A.Halts) ∨
    findEmbedding sort C A ro I t = .error .corrupt ∨ findEmbedding sort C A ro I t = .error .small := by
  unfold findEmbedding
  rcases process_spec hs hI with ⟨p, hp, l0, hrep⟩ | hbad | hbad
  · rw [hp]
    have d1 := dom_free p.P
    have d3 := hrep.initOK hI
    have hnew : Ok (Run.new p.P p.init t) (fun X => X.clock = 0) := by
      unfold Run.new
      refine Ok.bind (construct_shape hrep.wf d1 d3) ?_
      rintro ⟨E, t⟩ _
      exact Ok.pure rfl
    obtain ⟨X, hX, ⟨hri, hst⟩, hcl⟩ :=
      ((Run.new_spec hrep.wf d1 d3 t).both (Run.new_started hrep.wf d1 d3 t)).both hnew
    simp only [bind, Except.bind]
    rw [hX]
    dsimp only
    rcases hrep.restart_run hI (hrep.even' hc) hri hst hv hd C { A with restricted := !I.restrC.isEmpty } with
      ⟨⟨Y, ok⟩, hY, hy⟩ | ⟨hf, _⟩ | ⟨hi, hY⟩
    · rw [hY]
      dsimp only at hy ⊢
      rw [hcl] at hy
      by_cases hr : (ro || ok) = true
      · rw [if_pos hr, getChains_getAll]
        obtain ⟨⟨cs, t'⟩, h1, h2⟩ := hrep.getAll_range Y.best Y.S.tape
        rw [h1]
        dsimp only [Except.map]
        rcases hy with ⟨rfl, hy⟩ | ⟨rfl, hy⟩
        · exact Or.inl ⟨cs, rfl, hy cs h2.1 h2.2⟩
        · exact Or.inr (Or.inl ⟨cs, rfl, hy⟩)
      · rw [if_neg hr]
        simp only [Bool.or_eq_true, not_or, Bool.not_eq_true] at hr
        rcases hy with ⟨rfl, hy⟩ | ⟨rfl, hy⟩
        · simp at hr
        · exact Or.inr (Or.inl ⟨[], rfl, hy⟩)
    · exact hf.elim
    · rw [hY]
      exact Or.inr (Or.inr (Or.inl ⟨rfl, hi⟩))
  · rw [hbad]; exact Or.inr (Or.inr (Or.inr (Or.inl rfl)))
  · rw [hbad]; exact Or.inr (Or.inr (Or.inr (Or.inr rfl)))

/-! ### several embeddings -/

/-- What `find_embeddings` gives. -/
theorem several_spec {C : Cfg} {A : Params} {ro force : Bool} (hc : I.Compatible) : ∀ (fuel n : Nat) {m : Miner},
    MInv I l0 m → match m.several C A ro force fuel n with
      | .ok s => s.2.length ≤ n ∧ (force = true ∨ ro = true → s.2.length = n) ∧
          ∀ e ∈ s.2, (ro = false → Spec.EmbedsUpTo I.FixV I.src I.tgt e) ∧ (ro = true → Spec.Lists I e)
      | .error e => e = .interrupted ∧ A.Halts ∨ e = .raised .badInit ∨ e = .endless ∧ (fuel < n ∨ force = true ∧ ro = false) := by
  intro fuel
  induction fuel with
  | zero =>
    intro n m h
    cases n with
    | zero => simp [Miner.several]
    | succ n => simp [Miner.several]
  | succ fuel ih =>
    intro n m h
    cases n with
    | zero => simp [Miner.several]
    | succ n =>
      have hf := find_spec h hc C A ro
      unfold Miner.several
      simp only [bind, Except.bind]
      cases hm : m.find C A ro with
      | error e =>
        rw [hm] at hf
        rcases hf with ⟨rfl, hf⟩ | ⟨_, hf⟩
        · exact Or.inl ⟨rfl, hf⟩
        · exact hf.elim
      | ok s =>
        rw [hm] at hf
        obtain ⟨m1, r⟩ := s
        have hf : MSearched I l0 A ro m m1 r := hf
        have ha := hf.answers
        dsimp only
        cases r with
        | found ok cs =>
          dsimp only
          have hval : (ro || decide (cs.length ≠ 0)) = true →
              (ro = false → Spec.EmbedsUpTo I.FixV I.src I.tgt cs) ∧ (ro = true → Spec.Lists I cs) := by
            intro hr
            cases ok with
            | true =>
              refine ⟨fun _ => hf.valid, fun _ => ?_⟩
              have := hf.valid
              exact ⟨this.size, fun c hc => ⟨this.nodup c hc, this.nodes c hc⟩⟩
            | false =>
              refine ⟨fun h0 => ?_, ha.1⟩
              have := ha.2 h0
              rw [h0, this] at hr
              simp at hr
          by_cases hr : (ro || decide (cs.length ≠ 0)) = true
          · rw [if_pos hr]
            have := ih n hf.inv
            cases hs : m1.several C A ro force fuel n with
            | error e =>
              rw [hs] at this
              rcases this with h' | h' | ⟨h', h2⟩
              · exact Or.inl h'
              · exact Or.inr (Or.inl h')
              · exact Or.inr (Or.inr ⟨h', h2.imp_left (fun h => by omega)⟩)
            | ok s =>
              rw [hs] at this
              obtain ⟨m2, l⟩ := s
              obtain ⟨t1, t2, t3⟩ := this
              dsimp only at t1 t2 t3 ⊢
              refine ⟨by simp; exact t1, fun h => by simp; exact t2 h, ?_⟩
              intro e he
              rcases List.mem_cons.1 he with rfl | he
              · exact hval hr
              · exact t3 e he
          · rw [if_neg hr]
            have hro : ro = false := by cases ro <;> simp at hr ⊢
            by_cases hfo : force = true
            · rw [if_pos hfo]
              have := ih (n + 1) hf.inv
              cases hs : m1.several C A ro force fuel (n + 1) with
              | error e =>
                rw [hs] at this
                rcases this with h' | h' | ⟨h', _⟩
                · exact Or.inl h'
                · exact Or.inr (Or.inl h')
                · exact Or.inr (Or.inr ⟨h', Or.inr ⟨hfo, hro⟩⟩)
              | ok s => rw [hs] at this; exact this
            · rw [if_neg hfo]
              have := ih n hf.inv
              cases hs : m1.several C A ro force fuel n with
              | error e =>
                rw [hs] at this
                rcases this with h' | h' | ⟨h', h2⟩
                · exact Or.inl h'
                · exact Or.inr (Or.inl h')
                · exact Or.inr (Or.inr ⟨h', h2.imp_left (fun h => by omega)⟩)
              | ok s =>
                rw [hs] at this
                obtain ⟨t1, t2, t3⟩ := this
                refine ⟨by omega, ?_, t3⟩
                rintro (h' | h')
                · exact absurd h' hfo
                · rw [hro] at h'; simp at h'
        | raised e => exact Or.inr (Or.inl (by rw [show e = .badInit from ha]))
        | chains _ => exact ha.elim
        | done => exact ha.elim
        | unknown => exact ha.elim

/-- What `improve_embeddings` gives. -/
theorem improve_spec {C : Cfg} {A : Params} {ro : Bool} : ∀ (cs : List ChainMap) {I : Input} {m : Miner},
    MInv I l0 m → I.Compatible → (∀ c ∈ cs, (I.restart c).OK) → ∀ {k : Prop},
    (k ∨ ∀ c ∈ cs, Spec.Tame I (.initial c)) → match m.improve C A ro cs with
      | .ok s => s.2.length = cs.length ∧ ∀ (i : Nat) (c : ChainMap) (e : List (List Nat)), cs[i]? = some c →
          s.2[i]? = some e →
          (ro = false → e = [] ∨ Spec.EmbedsUpTo I.FixV I.src I.tgt e) ∧
          (ro = true → Spec.Lists I e) ∧
          ∀ ds, Spec.EmbedsUpTo I.FixV I.src I.tgt ds → Spec.StartsWith (I.restart c) ds → ¬ A.Stops →
            Spec.EmbedsUpTo I.FixV I.src I.tgt e ∧ Spec.NoLonger e ds
      | .error e => e = .interrupted ∧ A.Halts ∨ e = .raised .badInit ∨ (e = .terminated .corrupt ∨ e = .terminated .small) ∧ k := by
  intro cs
  induction cs with
  | nil => intro I m _ _ _ k _; exact ⟨rfl, by simp⟩
  | cons c cs ih =>
    intro I m h hc hk k hu
    unfold Miner.improve
    have h1 := setInitial_spec (i := A.Halts) h (hk c (by simp))
      (hu.imp_right (fun hu => h.entries (hu c (by simp)).1 (hu c (by simp)).2))
    simp only [bind, Except.bind]
    cases hm : m.setInitial c with
    | error e =>
      rw [hm] at h1
      rcases h1 with h1 | h1
      · exact Or.inl h1
      · exact Or.inr (Or.inr h1)
    | ok m1 =>
      rw [hm] at h1
      have h1 : MInv (I.restart c) l0 m1 := h1.1
      have hc1 : (I.restart c).Compatible := hc
      have hf := find_spec h1 hc1 C A ro
      dsimp only
      cases hm2 : m1.find C A ro with
      | error e =>
        rw [hm2] at hf
        rcases hf with ⟨rfl, hf⟩ | ⟨_, hf⟩
        · exact Or.inl ⟨rfl, hf⟩
        · exact hf.elim
      | ok s =>
        rw [hm2] at hf
        obtain ⟨m2, r⟩ := s
        have hf : MSearched (I.restart c) l0 A ro m1 m2 r := hf
        have ha := hf.answers
        dsimp only
        cases r with
        | found ok e =>
          dsimp only
          have := ih hf.inv hc1 (fun d hd => hk d (by simp [hd]))
            (hu.imp_right (fun hu d hd => (hu d (by simp [hd])).restart))
          cases hs : m2.improve C A ro cs with
          | error x => rw [hs] at this; exact this
          | ok s =>
            rw [hs] at this
            obtain ⟨m3, l⟩ := s
            obtain ⟨t1, t2⟩ := this
            dsimp only at t1 t2 ⊢
            refine ⟨by simp; exact t1, ?_⟩
            intro i d x hd hx
            cases i with
            | succ i =>
              simp only [List.getElem?_cons_succ] at hd hx
              exact t2 i d x hd hx
            | zero =>
              simp only [List.getElem?_cons_zero, Option.some.injEq] at hd hx
              subst hd; subst hx
              refine ⟨?_, ?_, ?_⟩
              · intro h0
                cases ok with
                | true => exact Or.inr hf.valid
                | false => exact Or.inl (ha.2 h0)
              · intro h0
                cases ok with
                | true =>
                  have := hf.valid
                  exact ⟨this.size, fun c hc => ⟨this.nodup c hc, this.nodes c hc⟩⟩
                | false => exact ha.1 h0
              · intro ds hv hd hA
                have hr := find_restart h1 hc1 hv hd C A ro
                rw [hm2] at hr
                rcases hr with ⟨cs', h', hv', hn'⟩ | ⟨_, hr⟩
                · simp only [Reply.found.injEq] at h'
                  obtain ⟨_, rfl⟩ := h'
                  exact ⟨hv', hn'⟩
                · exact absurd hr hA
        | raised e => exact Or.inr (Or.inl (by rw [show e = .badInit from ha]))
        | chains _ => exact ha.elim
        | done => exact ha.elim
        | unknown => exact ha.elim

/-! ### greedy passes without overlaps -/

namespace Spec

/-- `cs` embeds some of the source nodes: those with chains. -/
structure PartlyEmbeds (src tgt : IGraph) (cs : List (List Nat)) : Prop where
  size : cs.length = src.n
  nodup : ∀ c ∈ cs, c.Nodup
  nodes : ∀ c ∈ cs, ∀ q ∈ c, q < tgt.n
  connected : ∀ c ∈ cs, ConnectedIn tgt c
  disjoint : ¬ Overlaps cs
  edges : ∀ (u v : Nat) (c d : List Nat), src.Edge u v → u ≠ v → cs[u]? = some c → cs[v]? = some d →
    c ≠ [] → d ≠ [] → Joined tgt c d

/-- The chains the caller gives are connected and disjoint, and joined if their nodes are
neighbours. -/
structure GoodStart (I : Input) : Prop where
  connected : ∀ (u : Nat) (c : List Nat), Given I u c → ConnectedIn I.tgt c
  disjoint : ∀ (u v : Nat) (c d : List Nat), u ≠ v → Given I u c → Given I v d → ∀ q ∈ c, q ∉ d
  edges : ∀ (u v : Nat) (c d : List Nat), I.src.Edge u v → u ≠ v → Given I u c → Given I v d → Joined I.tgt c d

/-- A greedy pass that allows no overlaps, initial chains that partly embed the source, or a
search. -/
def Strict (I : Input) : Call → Prop
  | .quick _ K _ => K.overlap = 0
  | .initial c => GoodStart (I.restart c)
  | .find => True

end Spec

/-- Chains are connected and linked, and do not overlap. -/
structure Tidy (P : Prob) (E : Emb) : Prop where
  holds : ∀ u, u < P.nv → E.NE u → Holds P E u
  fill : ∀ q, E.w q ≤ 1

theorem Tidy.partly (h : p.Rep I l0) (hI : I.OK) (hf : I.fixedC = []) (hE : EInv p.P R E)
    (ht : Tidy p.P E) {cs : List (List Nat)} (hc : AllHanded I p l0 E cs) : Spec.PartlyEmbeds I.src I.tgt cs := by
  have hl := hc.lists h
  have hN := h.no_fixed hf
  have hlt : ∀ (u : Nat) (c : List Nat), cs[u]? = some c → u < I.src.n := by
    intro u c hu
    rw [← hc.1]; by_contra hcc; rw [List.getElem?_eq_none (by omega)] at hu; simp at hu
  have hnv : ∀ u, u < I.src.n → p.screw u < p.P.nv := by
    intro u hu; rw [← hN, h.hN]; exact h.slt u hu
  have hfill : ∀ q, E.fill p.P q ≤ 1 := by
    intro q
    have h1 := ht.fill q
    have h2 : E.w q = (E.fill p.P q : Int) := hE.exact q
    omega
  have hdis : ¬ Spec.Overlaps cs := by
    rintro ⟨u, v, c, d, q, huv, hu, hv, hq, hq'⟩
    have hul := hlt u c hu
    have hvl := hlt v d hv
    obtain ⟨i, hi, hi'⟩ := ((hc.2 u c hu).2 q).1 hq
    obtain ⟨j, hj, hj'⟩ := ((hc.2 v d hv).2 q).1 hq'
    have hij := h.get_inj hi hj
    subst hij
    have := cnt_le_one (hfill i) (by rw [h.hN]; exact h.slt u hul) (by rw [h.hN]; exact h.slt v hvl) hi' hj'
    apply huv
    rw [← h.su u hul, ← h.su v hvl, this]
  refine ⟨hc.1, fun c hm => (hl.2 c hm).1, fun c hm => (hl.2 c hm).2, ?_, hdis, ?_⟩
  · intro c hm
    obtain ⟨u, hu⟩ := List.getElem?_of_mem hm
    have hul := hlt u c hu
    by_cases hne : c = []
    · subst hne; intro a ha; simp at ha
    · refine h.chain_conn hE hul ?_ (hc.2 u c hu)
      exact (ht.holds _ (hnv u hul) (((hc.2 u c hu).ne h hul hE).1 hne)).1
  · intro u v c d he huv hu hv hcn hdn
    have hul := hlt u c hu
    have hvl := hlt v d hv
    have hu' := ((hc.2 u c hu).ne h hul hE).1 hcn
    have hv' := ((hc.2 v d hv).ne h hvl hE).1 hdn
    have hnf : ¬ I.FixV u := by rintro ⟨kv, hkv, _⟩; rw [hf] at hkv; simp at hkv
    have hL := (ht.holds _ (hnv u hul) hu').2 _ ((h.vn u v hul hvl hnf).2 ⟨huv, he⟩) hv'
    rcases Handed.linked h hul hvl huv hE hL (hc.2 u c hu) (hc.2 v d hv) with hj | ⟨q, hq, hq'⟩
    · exact hj
    · exact absurd ⟨u, v, c, d, q, huv, hu, hv, hq, hq'⟩ hdis

theorem Tidy.passed {P : Prob} (hE' : EInv P R E) {E0 : Emb} {K : Quick} {order : List Nat} (hN : P.N = P.nv) (wf : P.WF)
    (hK : K.overlap = 0) (h : Passed P K order E0 E) (h0 : Tidy P E0) (ho : ∀ u ∈ order, u < P.nv) : Tidy P E := by
  refine ⟨?_, ?_⟩
  · intro u hu hne
    by_cases hm : u ∈ order
    · exact h.own u hm hne
    · exact h.others u hu hm (h0.holds u hu ((h.ne u hm).1 hne))
  · intro q
    have h1 := h.fill (by rw [hK]) (by
      intro u hu v hv
      have := wf.vn_lt u v (ho u hu) hv
      unfold Prob.fixed
      simp; omega) q
    have h2 := h0.fill q
    rw [hK] at h1
    omega

theorem Tidy.none {P : Prob} (hN : P.N = P.nv) (hE : EInv P R E) (h : ∀ v, v < P.nv → ¬ E.NE v) : Tidy P E := by
  refine ⟨fun u hu hne => absurd hne (h u hu), fun q => ?_⟩
  have h2 : E.w q = (E.fill P q : Int) := hE.exact q
  have : E.fill P q = 0 := by
    unfold Emb.fill
    rw [cnt_eq_zero]
    intro v hv
    rw [hN] at hv
    by_contra hc
    exact h v hv ⟨q, by simpa using hc⟩
  omega

/-- Chains like the initial ones. -/
theorem Tidy.started (h : p.Rep I l0) (hI : I.OK) (hf : I.fixedC = []) {E0 : Emb} (hs : Started p.P R p.init E0)
    (hE : EInv p.P R E) (hc : ∀ v, v < p.P.N → E.chains v = E0.chains v) (hg : Spec.GoodStart I) : Tidy p.P E := by
  have hN := h.no_fixed hf
  have hfree : ∀ u, ¬ I.FixV u := by rintro u ⟨kv, hkv, _⟩; rw [hf] at hkv; simp at hkv
  have hne : ∀ v, v < p.P.N → (E.NE v ↔ E0.NE v) := by
    intro v hv; unfold Emb.NE; rw [hc v hv]
  have hL : ∀ u v, u < p.P.N → E.L u v = E0.L u v := by
    intro u v hu; unfold Emb.L; rw [hc u hu]
  refine ⟨fun i hi hn => ?_, fun q => ?_⟩
  · have hiN : i < p.P.N := by rw [hN]; exact hi
    obtain ⟨u1, u2⟩ := h.us i (by rw [← h.hN]; exact hiN)
    have hn0 := (hne i hiN).1 hn
    rw [← u2] at hn0
    obtain ⟨c, hcg⟩ := (hs.ne_iff h hI u1).1 hn0
    have hp : Spec.Placed I (p.unscrew i) :=
      ⟨c, hcg, hg.connected _ _ hcg, fun v d huv he hd => Or.inl (hg.edges _ _ _ _ he huv hcg hd)⟩
    have := (hs.holds h hI u1 (hfree _) hp).2
    rw [u2] at this
    refine ⟨by rw [hL _ _ hiN]; exact this.1, fun v hv hv' => ?_⟩
    have hvN := h.wf.vn_lt i v hi hv
    rw [hL _ _ hiN]
    exact this.2 v hv ((hne v hvN).1 hv')
  · have h2 : E.w q = (E.fill p.P q : Int) := hE.exact q
    have : E.fill p.P q ≤ 1 := by
      unfold Emb.fill
      apply cnt_unique
      intro i j hi hj hqi hqj
      obtain ⟨u1, u2⟩ := h.us i (by rw [← h.hN]; exact hi)
      obtain ⟨v1, v2⟩ := h.us j (by rw [← h.hN]; exact hj)
      have ei := hc i hi
      have ej := hc j hj
      rw [ei] at hqi
      rw [ej] at hqj
      have hql : q < l0.length := by
        rw [← h.hQ]
        have := (hE.cinv i hi).has_lt (q := q) (by rw [ei]; exact hqi)
        exact this
      obtain ⟨x, hx⟩ := getElem?_lt hql
      obtain ⟨c, hcg⟩ := (hs.ne_iff h hI u1).1 (by rw [u2]; exact ⟨q, hqi⟩)
      obtain ⟨d, hdg⟩ := (hs.ne_iff h hI v1).1 (by rw [v2]; exact ⟨q, hqj⟩)
      have m1 := ((hs.given h hI hcg).2 x).2 ⟨q, hx, by rw [u2]; exact hqi⟩
      have m2 := ((hs.given h hI hdg).2 x).2 ⟨q, hx, by rw [v2]; exact hqj⟩
      by_contra hij
      have hne' : p.unscrew i ≠ p.unscrew j := by
        intro hcc; apply hij; rw [← u2, ← v2, hcc]
      exact hg.disjoint _ _ c d hne' hcg hdg x (List.mem_dedup.1 m1) (List.mem_dedup.1 m2)
    omega

/-- The chains of a search that succeeds. -/
theorem Tidy.found {P : Prob} {X : Run} (hN : P.N = P.nv) (hg : Good P (fun _ q => q < P.nq) X)
    (he : X.embedded = true) : Tidy P X.best := by
  refine ⟨fun u hu _ => ⟨(hg.best.full u hu).1, fun v hv _ => (hg.best.full u hu).2 v hv⟩, fun q => ?_⟩
  have h2 : X.best.w q = (X.best.fill P q : Int) := hg.best.inv.exact q
  have h3 := hg.best.st.flag.1 he
  by_cases hq : q < P.nq
  · have := h3 q hq; omega
  · have : X.best.fill P q = 0 := by
      unfold Emb.fill
      rw [cnt_eq_zero]
      intro v hv
      by_contra hc
      have hc' : (X.best.chains v).has q = true := by simpa using hc
      rw [hN] at hv
      exact hq (hg.best.inv.dom v q hv hc')
    omega

theorem Trace.tidy {A : Params} {ro : Bool} {m m' : Miner} {cs : List Call} {rs : List Reply}
    (h : Trace l0 A ro I m cs rs m') (hm : MInv I l0 m) (hf : I.fixedC = []) (hi : Spec.GoodStart I)
    (ht : Tidy m.p.P m.X.best) (hk : ∀ c ∈ cs, Spec.Strict I c) (hr : ∀ ds, .found false ds ∉ rs) :
    ∀ (i : Nat) (ds : List (List Nat)), rs[i]? = some (.chains ds) → Spec.PartlyEmbeds I.src I.tgt ds := by
  induction h with
  | nil => intro i ds hr; simp at hr
  | @cons I m m1 m2 c r cs rs hd _ ih =>
    have hs := hk c (by simp)
    have hr' : ∀ ds, .found false ds ∉ rs := fun ds hm => hr ds (by simp [hm])
    have rest : ∀ (i : Nat) (ds : List (List Nat)), (r :: rs)[i]? = some (.chains ds) →
        (∀ ds, r = .chains ds → Spec.PartlyEmbeds I.src I.tgt ds) →
        (∀ (i : Nat) (ds : List (List Nat)), rs[i]? = some (.chains ds) → Spec.PartlyEmbeds I.src I.tgt ds) →
        Spec.PartlyEmbeds I.src I.tgt ds := by
      intro i ds hr h1 h2
      cases i with
      | zero =>
        simp only [List.getElem?_cons_zero, Option.some.injEq] at hr
        exact h1 ds hr
      | succ i =>
        simp only [List.getElem?_cons_succ] at hr
        exact h2 i ds hr
    cases hd with
    | find h =>
      have hN1 := h.inv.rep.no_fixed hf
      have key : Tidy m1.p.P m1.X.best ∧ ∀ ds, r ≠ .chains ds := by
        rcases h.reply with ⟨rfl, h2⟩ | ⟨ok, ds, rfl, h2, h3, _⟩
        · exact ⟨by rw [h.p, h2]; exact ht, by simp⟩
        · refine ⟨?_, by simp⟩
          cases ok with
          | true => exact Tidy.found hN1 (h2 rfl) h3
          | false => exact absurd (by simp) (hr ds)
      intro i ds hri
      exact rest i ds hri (fun ds hds => absurd hds (key.2 ds))
        (ih h.inv hf hi key.1 (fun d hd => hk d (by simp [hd])) hr')
    | @initial c h hp _ _ hb =>
      intro i ds hri
      refine rest i ds hri (by simp) ?_
      refine ih h hf hs (by rw [hp, hb]; exact ht) (fun d hd => ?_) hr'
      have hd' := hk d (by simp [hd])
      cases d with
      | quick _ _ _ => exact hd'
      | find => trivial
      | initial e => exact hd'
    | @quick C K s r hp hu =>
      have hs : K.overlap = 0 := hs
      have hN := hm.rep.no_fixed hf
      have key : (∀ ds, r = .chains ds → Spec.PartlyEmbeds I.src I.tgt ds) ∧ Tidy m1.p.P m1.X.best := by
        rcases hp.reply with ⟨h1, h2⟩ | ⟨ds, order, E, rfl, g1, g2, g3, g4, g5, g6, g7⟩
        · refine ⟨?_, by rw [hp.p, h2]; exact ht⟩
          rintro ds rfl
          rcases h1 with h1 | h1 <;> simp at h1
        · have hN1 := hp.inv.rep.no_fixed hf
          have h0 : Tidy m1.p.P E := by
            by_cases hcl : K.clear = true ∨ m.quick = false
            · have g3' := g3
              have g5' := g5 hcl
              rw [hp.p] at g3' g5' ⊢
              exact Tidy.started hm.rep hm.ok hf hm.started g3' g5' hi
            · have hc1 : K.clear = false := by cases hb : K.clear <;> simp [hb] at hcl ⊢
              have hc2 : m.quick = true := by cases hb : m.quick <;> simp [hb] at hcl ⊢
              rw [g4 hc1 hc2, hp.p]; exact ht
          have h1 := Tidy.passed g2 hN1 hp.inv.rep.wf hs g7 h0 g6
          refine ⟨?_, h1⟩
          rintro ds' hds
          simp only [Reply.chains.injEq] at hds
          subst hds
          exact h1.partly hp.inv.rep hp.inv.ok hf g2 g1
      intro i ds hri
      exact rest i ds hri key.1 (ih hp.inv hf hi key.2 (fun d hd => hk d (by simp [hd])) hr')

end MM
