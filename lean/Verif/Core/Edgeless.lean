import Verif.Core.RunPost

/-! Searches for variables without neighbours: each gets a qubit of its own. -/

namespace MM

open Scratch (Cfg)

variable {P : Prob} {R : Nat → Nat → Prop}

theorem maxWeight_ge (E : Emb) : ∀ (l : List Nat) (m0 : Int),
    m0 ≤ l.foldl (fun m i => max m (E.w (0 + i))) m0 ∧
    (∀ q ∈ l, E.w q ≤ l.foldl (fun m i => max m (E.w (0 + i))) m0) ∧
    (l.foldl (fun m i => max m (E.w (0 + i))) m0 = m0 ∨
      ∃ q ∈ l, l.foldl (fun m i => max m (E.w (0 + i))) m0 = E.w q) := by
  intro l
  induction l with
  | nil => intro m0; simp
  | cons a l ih =>
    intro m0
    obtain ⟨h1, h2, h3⟩ := ih (max m0 (E.w (0 + a)))
    rw [List.foldl_cons]
    generalize l.foldl (fun m i => max m (E.w (0 + i))) (max m0 (E.w (0 + a))) = z at *
    rw [Nat.zero_add] at *
    refine ⟨by omega, ?_, ?_⟩
    · intro q hq
      rcases List.mem_cons.1 hq with rfl | hq
      · omega
      · exact h2 q hq
    · rcases h3 with h3 | ⟨q, hq, h3⟩
      · rcases le_total m0 (E.w a) with h | h
        · right; exact ⟨a, by simp, by omega⟩
        · left; omega
      · right; exact ⟨q, by simp [hq], h3⟩

/-- With fills 0 and 1 only, the largest fill is 1 exactly if some qubit is used. -/
theorem maxWeight_01 {E : Emb} {n : Nat} (hn : 0 < n) (h : ∀ q, q < n → E.w q = 0 ∨ E.w q = 1) :
    (E.maxWeight 0 n = 0 ∧ ∀ q, q < n → E.w q = 0) ∨ E.maxWeight 0 n = 1 := by
  obtain ⟨h1, h2, h3⟩ := maxWeight_ge E (List.range (n - 0)) (E.w 0)
  have he : E.maxWeight 0 n = (List.range (n - 0)).foldl (fun m i => max m (E.w (0 + i))) (E.w 0) := rfl
  rw [← he] at h1 h2 h3
  have hm : E.maxWeight 0 n = 0 ∨ E.maxWeight 0 n = 1 := by
    rcases h3 with h3 | ⟨q, hq, h3⟩
    · rw [h3]; exact h 0 hn
    · rw [h3]; exact h q (by simpa using hq)
  rcases hm with hm | hm
  · left
    refine ⟨hm, fun q hq => ?_⟩
    have := h2 q (by simpa using hq)
    rcases h q hq with h | h
    · exact h
    · omega
  · exact Or.inr hm

/-- The weights a search over fills 0 and 1 meets: a used qubit is dearer than a free one. -/
def Prefers (C : Cfg) : Prop := C.weight 0 0 ≠ none ∧ D.lt (C.weight 1 0) (C.weight 1 1) = true

theorem findChain_alone (hn : 0 < P.nq) {C : Cfg} (hpar : C.par = false) (hC : Prefers C) {wb : Int} (hwb : 1 ≤ wb)
    {cs u : Nat} (hacc : ∀ q, q < P.nq → P.accepts u q = true) {E : Emb} {S : Scratch} (hvn : S.vn u = [])
    (hw : ∀ q, q < P.nq → E.w q = 0 ∨ E.w q = 1) (hfree : ∃ q, q < P.nq ∧ E.w q = 0) :
    Ok (Scratch.findChain P C wb cs u E S) (fun r => r.2.2 = true ∧ (∃ q, q < P.nq ∧ E.w q = 0 ∧ r.1.w = upd E.w q 1) ∧
      (∀ v, v ≠ u → r.1.chains v = E.chains v)) := by
  unfold Scratch.findChain
  have hmix : Scratch.mixQueues P u S = .ok { S with vn := upd S.vn u [] } := by
    unfold Scratch.mixQueues
    rw [hvn]
    rfl
  rw [hmix]
  dsimp only [bind, Except.bind]
  rw [hpar]
  simp only [Bool.false_eq_true, if_false]
  obtain ⟨tot, htot⟩ : ∃ tot : Nat → D, tot = fun q => if q < P.nq then (if wb ≤ E.w q then none else
    Scratch.dmax (C.weight (E.maxWeight 0 P.nq) (E.w q)) (Scratch.prepDistances P u q)) else Scratch.prepDistances P u q := ⟨_, rfl⟩
  have hroot : Scratch.rootSerial P C.weight E wb u { S with vn := upd S.vn u [] } =
      .ok (tot, { S with vn := upd S.vn u [] }) := by
    unfold Scratch.rootSerial
    simp only [upd_same, List.foldlM_nil, pure, Except.pure, bind, Except.bind, if_true]
    rw [htot]
  rw [hroot]
  dsimp only
  -- totals
  have htq : ∀ q, q < P.nq → tot q = if wb ≤ E.w q then none else C.weight (E.maxWeight 0 P.nq) (E.w q) := by
    intro q hq
    rw [htot]
    dsimp only
    rw [if_pos hq]
    split
    · rfl
    · have : Scratch.prepDistances P u q = some 0 := by
        unfold Scratch.prepDistances; rw [hacc q hq]; rfl
      rw [this]
      unfold Scratch.dmax
      rw [if_neg]
      cases C.weight (E.maxWeight 0 P.nq) (E.w q) <;> simp [D.lt]
  obtain ⟨f, hf, hfw⟩ := hfree
  have htf : tot f = C.weight (E.maxWeight 0 P.nq) 0 := by rw [htq f hf, if_neg (by omega), hfw]
  obtain ⟨mins, hm1, hm2, hm3⟩ := collectMinima_eq hn tot
  rw [hm1]
  dsimp only
  have hmem : ∀ q ∈ mins, q < P.nq ∧ E.w q = 0 ∧ tot q ≠ none := by
    intro q hq
    rw [hm2, List.mem_filter, List.mem_range, List.all_eq_true] at hq
    obtain ⟨hq1, hq2⟩ := hq
    have hq3 := hq2 f (List.mem_range.2 hf)
    rw [htf] at hq3
    have hw0 : E.w q = 0 := by
      rcases hw q hq1 with h | h
      · exact h
      · exfalso
        rcases maxWeight_01 hn hw with ⟨_, h0⟩ | hmax
        · have := h0 q hq1; omega
        · rw [hmax, htq q hq1, hmax, h] at hq3
          split at hq3
          · have := D.lt_ne_none hC.2
            cases hc : C.weight 1 0 with
            | none => exact this hc
            | some x => rw [hc] at hq3; simp [D.lt] at hq3
          · rw [hC.2] at hq3; simp at hq3
    refine ⟨hq1, hw0, ?_⟩
    rw [htq q hq1, hw0, if_neg (by omega)]
    rcases maxWeight_01 hn hw with ⟨h0, _⟩ | hmax
    · rw [h0]; exact hC.1
    · rw [hmax]; exact D.lt_ne_none hC.2
  have hpl : (pick mins.length S.tape).1 < mins.length := pick_lt (List.length_pos_iff.2 hm3) _
  generalize pick mins.length S.tape = pk at hpl ⊢
  obtain ⟨i, t⟩ := pk
  dsimp only at hpl ⊢
  rw [List.getElem?_eq_getElem hpl]
  dsimp only
  obtain ⟨hq1, hq2, hq3⟩ := hmem _ (List.getElem_mem hpl)
  generalize mins[i] = q0 at *
  rw [if_neg hq3]
  have hQ : q0 < P.Q := by unfold Prob.Q; omega
  unfold Emb.constructSteiner Emb.flipBack Chain.setRoot
  simp only [upd_same, hQ, if_true, List.foldlM_nil, pure, Except.pure, bind, Except.bind]
  refine Ok.pure ⟨rfl, ⟨q0, hq1, hq2, ?_⟩, ?_⟩
  · dsimp only; rw [hq2]; rfl
  · intro v hv
    dsimp only
    unfold upd
    rw [if_neg hv]

theorem Ok.both {α : Type} {m : M α} {Q Q' : α → Prop} (h : Ok m Q) (h' : Ok m Q') : Ok m (fun a => Q a ∧ Q' a) := by
  obtain ⟨a, rfl, ha⟩ := h
  obtain ⟨b, hb, hb'⟩ := h'
  cases hb
  exact ⟨a, rfl, ha, hb'⟩

theorem place_alone (hn : 0 < P.nq) {C : Cfg} (hpar : C.par = false) (hC : Prefers C) {u : Nat}
    (hacc : ∀ q, q < P.nq → P.accepts u q = true) {X : Run} (hX : X.embedded = false) (hwb : 1 ≤ X.wb)
    (hvn : X.S.vn u = []) (hh : ∀ q, (X.curr.chains u).has q = false)
    (hw : ∀ q, q < P.nq → X.curr.w q = 0 ∨ X.curr.w q = 1) (hfree : ∃ q, q < P.nq ∧ X.curr.w q = 0) :
    Ok (Run.place P C u X) (fun r => r.2 = true ∧ (∃ q, q < P.nq ∧ X.curr.w q = 0 ∧ r.1.curr.w = upd X.curr.w q 1) ∧
      (∀ v, v ≠ u → r.1.curr.chains v = X.curr.chains v)) := by
  unfold Run.place
  refine Ok.bind (P := fun E => E = X.curr) ?_ ?_
  · split
    · unfold Emb.stealAll
      rw [hvn]
      exact Ok.pure rfl
    · exact Ok.pure rfl
  rintro E rfl
  rw [if_neg (by simp [hX])]
  have hw' : (fun q => X.curr.w q - ind ((X.curr.chains u).has q)) = X.curr.w := by
    funext q; rw [hh q]; simp [ind]
  refine Ok.bind (P := fun E => E.w = X.curr.w ∧ ∀ v, v ≠ u → E.chains v = X.curr.chains v) ?_ ?_
  · unfold Emb.tearOut Chain.clear
    rw [hvn]
    refine Ok.pure ⟨hw', ?_⟩
    intro v hv
    dsimp only
    unfold upd
    rw [if_neg hv]
  rintro E ⟨e1, e2⟩
  refine Ok.bind (findChain_alone hn hpar hC hwb hacc hvn (E := E) (by rw [e1]; exact hw) (by rw [e1]; exact hfree)) ?_
  rintro ⟨E', S', got⟩ ⟨g1, ⟨q, g2, g3, g4⟩, g5⟩
  dsimp only at *
  refine Ok.pure ⟨g1, ⟨q, g2, by rw [← e1]; exact g3, by rw [← e1]; exact g4⟩, ?_⟩
  intro v hv
  exact (g5 v hv).trans (e2 v hv)

/-- The used qubits: one for each variable placed so far, and enough are left for the rest. -/
def Spaced (P : Prob) (E : Emb) (l : List Nat) : Prop :=
  ∃ used : List Nat, used.Nodup ∧ (∀ q ∈ used, q < P.nq) ∧ used.length + l.length ≤ P.nq ∧
    ∀ q, q < P.nq → E.w q = if q ∈ used then 1 else 0

theorem Spaced.binary {E : Emb} {l : List Nat} (h : Spaced P E l) : ∀ q, q < P.nq → E.w q = 0 ∨ E.w q = 1 := by
  obtain ⟨used, _, _, _, h4⟩ := h
  intro q hq
  rw [h4 q hq]
  split
  · exact Or.inr rfl
  · exact Or.inl rfl

theorem Spaced.free {E : Emb} {u : Nat} {l : List Nat} (h : Spaced P E (u :: l)) : ∃ q, q < P.nq ∧ E.w q = 0 := by
  obtain ⟨used, _, _, h3, h4⟩ := h
  by_contra hc
  have hsub : ∀ q ∈ List.range P.nq, q ∈ used := by
    intro q hq
    have hq := List.mem_range.1 hq
    by_contra hu
    exact hc ⟨q, hq, by rw [h4 q hq, if_neg hu]⟩
  have := (List.nodup_range.subperm hsub).length_le
  simp at this h3
  omega

theorem Spaced.use {E : Emb} {u : Nat} {l : List Nat} (h : Spaced P E (u :: l)) {q : Nat} (hq : q < P.nq)
    (h0 : E.w q = 0) {E' : Emb} (hE : E'.w = upd E.w q 1) : Spaced P E' l := by
  obtain ⟨used, h1, h2, h3, h4⟩ := h
  have hqu : q ∉ used := by
    intro hc
    rw [h4 q hq, if_pos hc] at h0
    omega
  refine ⟨q :: used, List.nodup_cons.2 ⟨hqu, h1⟩, ?_, by simp at h3 ⊢; omega, ?_⟩
  · intro x hx
    rcases List.mem_cons.1 hx with rfl | hx
    · exact hq
    · exact h2 x hx
  · intro x hx
    rw [hE]
    unfold upd
    by_cases hxq : x = q
    · subst hxq; simp
    · rw [if_neg hxq, h4 x hx]; simp [hxq]

theorem initLoop_alone (wf : P.WF) (hR : Dom P R) (he : P.Even) {C : Cfg} (hpar : C.par = false) (hC : Prefers C)
    (hacc : ∀ u q, u < P.nv → q < P.nq → P.accepts u q = true) (hvn : ∀ u, u < P.nv → P.vn u = []) :
    ∀ (l : List Nat) {X : Run}, RI P R X → X.embedded = false → 1 ≤ X.wb →
    (∀ u ∈ l, u < P.nv) → l.Nodup → (∀ u ∈ l, ∀ q, (X.curr.chains u).has q = false) → Spaced P X.curr l →
    Ok (Run.initLoop P C l X) (fun r => r.2 = true ∧ Spaced P r.1.curr []) := by
  intro l
  induction l with
  | nil =>
    intro X _ _ _ _ _ _ hs
    exact Ok.pure ⟨rfl, hs⟩
  | cons u l ih =>
    intro X h hX hwb hl hnd hh hs
    have hu := hl u (by simp)
    have hsz : X.curr.chainsize P u = 0 := by
      unfold Emb.chainsize Chain.size
      have : (X.curr.chains u).has = fun _ => false := funext (hh u (by simp))
      rw [this]
      clear * -
      induction P.Q with
      | zero => rfl
      | succ n ih => unfold cnt; rw [ih]; rfl
    unfold Run.initLoop
    rw [if_neg (by rw [hsz]; simp)]
    have hvnu : X.S.vn u = [] := by
      have := h.vn u hu
      rw [hvn u hu] at this
      exact List.perm_nil.1 this
    refine Ok.bind ((place_free wf hR he hu h hX (T := fun _ => False) (fun _ _ h => h.elim)).both
      (place_alone wf.nq_pos hpar hC (fun q => hacc u q hu) hX hwb hvnu (hh u (by simp)) hs.binary hs.free)) ?_
    rintro ⟨X1, got⟩ ⟨⟨h1, h2, _⟩, h3, ⟨q, h4, h5, h6⟩, h7⟩
    dsimp only at *
    subst h3
    simp only [if_true]
    obtain ⟨n1, n2⟩ := List.nodup_cons.1 hnd
    refine ih h1 (by rw [h2]; exact hX) (by rw [h2]; exact hwb) (fun v hv => hl v (by simp [hv])) n2 ?_ (hs.use h4 h5 h6)
    intro v hv p
    rw [h7 v (by rintro rfl; exact n1 hv)]
    exact hh v (by simp [hv]) p

theorem initPass_alone (wf : P.WF) (hR : Dom P R) (he : P.Even) {C : Cfg} (hpar : C.par = false) (hC : Prefers C)
    (hacc : ∀ u q, u < P.nv → q < P.nq → P.accepts u q = true) (hvn : ∀ u, u < P.nv → P.vn u = [])
    (hle : P.nv ≤ P.nq) {A : Params} {X : Run} (h : RI P R X) (hX : X.embedded = false) (hwb : 1 ≤ X.wb)
    (hst : A.stops X.clock = (false, false)) (hh : ∀ u, u < P.nv → ∀ q, (X.curr.chains u).has q = false)
    (hw : ∀ q, q < P.nq → X.curr.w q = 0) :
    Ok (Run.initPass P C A X) (fun r => r.2 = .better ∧ ∀ q, q < P.nq → r.1.curr.w q ≤ 1) := by
  unfold Run.initPass
  refine Ok.bind (orderBy_spec wf h) ?_
  rintro X1 ⟨h1, ⟨l, t, hX1⟩, h2, _⟩
  have ho : X1.order.Perm (List.range P.nv) := h2 (by split <;> simp)
  have hc : X1.curr = X.curr := by rw [hX1]
  refine Ok.bind ((initLoop_spec wf hR he X1.order h1 (T := fun _ => False) (by rw [hX1]; exact hX)
      (fun u hu => List.mem_range.1 (ho.mem_iff.1 hu)) (fun _ _ h => h.elim)).both
    (initLoop_alone wf hR he hpar hC hacc hvn X1.order h1 (by rw [hX1]; exact hX) (by rw [hX1]; exact hwb)
      (fun u hu => List.mem_range.1 (ho.mem_iff.1 hu)) (ho.nodup_iff.2 List.nodup_range)
      (fun u hu => by rw [hc]; exact hh u (List.mem_range.1 (ho.mem_iff.1 hu)))
      ⟨[], List.nodup_nil, by simp, by rw [ho.length_eq]; simpa using hle, fun q hq => by rw [hc, hw q hq]; simp⟩)) ?_
  rintro ⟨X2, got⟩ ⟨⟨_, k2, _⟩, rfl, hs⟩
  dsimp only at *
  have hck : X2.clock = X.clock := by rw [k2, hX1]
  rw [if_pos rfl]
  unfold Run.checkStops
  rw [hck, hst]
  refine Ok.pure ⟨rfl, ?_⟩
  intro q hq
  dsimp only
  rcases hs.binary q hq with h | h <;> rw [h] <;> omega

/-- Variables without neighbours are embedded as soon as there are enough qubits. -/
theorem heuristic_alone (wf : P.WF) (hR : Dom P R) (he : P.Even) (hn : 0 < P.N) (hnf : P.nf = 0)
    {C : Cfg} (hpar : C.par = false) (hC : Prefers C)
    (hacc : ∀ u q, u < P.nv → q < P.nq → P.accepts u q = true) (hvn : ∀ u, u < P.nv → P.vn u = [])
    (hle : P.nv ≤ P.nq) {A : Params} (hsk : A.skipInit = false) (hb : 1 ≤ A.bound) (hA : ¬ A.Halts)
    {X : Run} (h : RI0 P R X) (hst : A.stops X.clock = (false, false))
    (hh : ∀ u, u < P.nv → ∀ q, (X.init.chains u).has q = false) :
    Ok (Run.heuristic P C A X) (fun r => r.2 = true) := by
  unfold Run.heuristic Run.heuristicFor
  have hcp := EInv.copy h.curr.1 h.curr.2 h.init
  have hNv : P.N = P.nv := by unfold Prob.N; omega
  obtain ⟨X0, hX0⟩ : ∃ X0 : Run, X0 = { X with wb := A.bound, embedded := false, desperate := false, cs := 0, improved := false, curr := Emb.copy P X.curr X.init } := ⟨_, rfl⟩
  have hri : RI P R X0 := by rw [hX0]; exact ⟨h.vn, h.init, hcp.1, h.best, h.last, h.ord⟩
  have hh0 : ∀ u, u < P.nv → ∀ q, (X0.curr.chains u).has q = false := by
    intro u hu q
    rw [hX0]
    dsimp only
    rw [hcp.2 u (by omega)]
    exact hh u hu q
  have hw0 : ∀ q, q < P.nq → X0.curr.w q = 0 := by
    intro q _
    rw [hri.curr.exact q]
    have : ∀ n, n ≤ P.nv → cnt (fun v => (X0.curr.chains v).has q) n = 0 := by
      intro n
      induction n with
      | zero => intro _; rfl
      | succ n ih => intro hn; unfold cnt; rw [ih (by omega)]; simp [hh0 n (by omega) q]
    rw [this P.N (by omega)]; rfl
  refine Ok.bind (P := fun r : Run × Bool => r.2 = true ∧ RI P R r.1 ∧ r.1.embedded = false ∧ Full P r.1.curr ∧
    ∀ q, q < P.nq → r.1.curr.w q ≤ 1) ?_ ?_
  · unfold Run.start Run.resetMood
    dsimp only
    rw [if_neg (by simp [hsk]), ← hX0]
    have hs := initPass_spec (A := A) (C := C) wf hR he hri (by rw [hX0])
    have ha := initPass_alone (A := A) wf hR he hpar hC hacc hvn hle hri (by rw [hX0]) (by rw [hX0]; exact hb)
      (by rw [hX0]; exact hst) hh0 hw0
    obtain ⟨⟨X1, res⟩, hr, hr1, hr2⟩ := ha
    rcases hs with ⟨a, e, k1, k2, k3, _⟩ | ⟨hf, _⟩ | ⟨hf, _⟩
    · rw [hr] at e
      cases e
      rw [hr]
      dsimp only at *
      subst hr1
      exact Ok.pure ⟨rfl, k1, by rw [k2, hX0], k3 rfl, hr2⟩
    · exact hf.elim
    · exact absurd hf hA
  rintro ⟨X1, go⟩ ⟨rfl, h1, he1, hf1, hw1⟩
  dsimp only at *
  rw [if_pos rfl]
  have hri1 : RI P R { X1 with stats := [] } := ⟨h1.vn, h1.init, h1.curr, h1.best, h1.last, h1.ord⟩
  refine Ok.bind (check_spec wf hri1 hf1 (Or.inr ⟨rfl, he1⟩)) ?_
  rintro ⟨X2, b⟩ ⟨m1, m2, m3, st, hst⟩
  dsimp only at *
  have hfl : st.1 = true := hst.ok.flag.2 (by
    intro q hq
    have := h1.curr.exact q
    have h1 := hw1 q hq
    unfold Emb.fill
    dsimp only
    omega)
  have hb2 : b = true := by
    have := hst.dec
    dsimp only at this
    rw [this, hfl, he1]
    rfl
  have hemb : X2.embedded = true := by
    have := (hst.yes hb2).1
    dsimp only at this
    rw [this, hfl]
  obtain ⟨r1, r2⟩ := Good.restore wf ⟨m1, m2⟩
  rw [trials_embedded _ (X := { X2 with improved := true, curr := Emb.copy P X2.curr X2.best }) hemb]
  dsimp only [bind, Except.bind]
  by_cases hc : X2.embedded = true ∧ A.clPatience ≠ 0
  · rw [if_pos hc]
    have hg : Good P R { X2 with improved := true, curr := Emb.copy P X2.curr X2.best } := r1.flags rfl rfl rfl rfl rfl rfl rfl rfl
    obtain ⟨s1, s2⟩ := hg.restore wf
    have hsh := shrink_spec (C := C) (A := A) wf hR he hn (Run.shrinkFuel P A) (ip := A.clPatience)
      (X := { X2 with improved := true, wb := 1, curr := Emb.copy P (Emb.copy P X2.curr X2.best) X2.best })
      (s1.flags rfl rfl rfl rfl rfl rfl rfl rfl) s2 hemb (Nat.le_refl _) (by
        have hv : StatsOK P X2.best (true, X2.stats) := by rw [← hemb]; exact m2.st
        have := histVal_lt hv
        have := Nat.mul_le_mul_left (A.clPatience + 1) (Nat.le_of_lt this)
        unfold Run.shrinkFuel
        rw [Nat.mul_add]
        dsimp only
        omega)
    rcases hsh with ⟨X3, hX3, _, hg3⟩ | ⟨hf, _⟩ | ⟨hf, _⟩
    · rw [hX3]
      exact Ok.pure (hg3 hemb).1
    · exact hf.elim
    · exact absurd hf hA
  · rw [if_neg hc]
    exact Ok.pure hemb

end MM
