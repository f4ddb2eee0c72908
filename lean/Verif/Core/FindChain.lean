import Verif.Core.SearchInv

/-! `find_chain`: finding a root and building a chain for a variable that was torn out. -/

namespace MM

open Chain (CInv zero Near SelfPres Tight WD WD2 PathTo)

variable {P : Prob} {R : Nat → Nat → Prop} {E : Emb}

/-- The domains of the neighbours of a variable agree outside its own domain. Trivially
true without `restrict_chains`. -/
def Prob.Even (P : Prob) : Prop :=
  ∀ u v v' q, u < P.nv → v ∈ P.vn u → v' ∈ P.vn u → q < P.nq →
    P.accepts v' q = true → P.accepts u q = true ∨ P.accepts v q = true

/-- Qubits that a search for a chain of `u` may use. -/
def Elig (P : Prob) (u p : Nat) : Prop :=
  p < P.nq ∧ (P.accepts u p = true ∨ ∃ v ∈ P.vn u, P.accepts v p = true)

/-- The same, outside full qubits; seeds next to a fixed chain are not tested for fullness. -/
def EligB (P : Prob) (E : Emb) (wb : Int) (u p : Nat) : Prop :=
  Elig P u p ∧ ((∃ v ∈ P.vn u, P.fixed v = true) ∨ E.w p < wb)

theorem Elig.vis (he : P.Even) {u v p : Nat} (hu : u < P.nv) (hv : v ∈ P.vn u) (h : Elig P u p) :
    Scratch.prepVisited P u v p = 0 := by
  unfold Scratch.prepVisited
  rw [if_pos]
  obtain ⟨hp, h | ⟨v', hv', h⟩⟩ := h
  · simp [h]
  · rcases he u v v' p hu hv hv' hp h with h | h <;> simp [h]

theorem Elig.dom (hR : Dom P R) {u p : Nat} (hu : u < P.nv) (h : Elig P u p) : R u p := by
  obtain ⟨hp, h | ⟨v, hv, h⟩⟩ := h
  · exact hR.root u p hu hp h
  · exact hR.search u v p hu hv hp (Or.inr h)

/-! ### collectMinima -/

theorem collectMinima_fold (tot : Nat → D) (k : Nat) :
    ∀ s, s = (List.range k).foldl (init := ([], tot 0))
      (fun s i => Scratch.minStep s i (tot i)) →
    s.1 = (List.range k).filter (fun i => decide (tot i = s.2)) ∧
      (∀ j, j < k → D.lt (tot j) s.2 = false) ∧ (k = 0 → s.2 = tot 0) ∧
      (0 < k → ∃ j, j < k ∧ tot j = s.2) := by
  induction k with
  | zero => rintro s rfl; simp
  | succ k ih =>
    intro s hs
    rw [List.range_succ, List.foldl_append] at hs
    simp only [List.foldl_cons, List.foldl_nil] at hs
    generalize hs0 : (List.range k).foldl (init := ([], tot 0))
      (fun s i => Scratch.minStep s i (tot i)) = s0 at hs
    obtain ⟨h1, h2, h3, h4⟩ := ih s0 hs0.symm
    subst hs
    unfold Scratch.minStep
    by_cases he : tot k = s0.2
    · rw [if_pos he]
      refine ⟨?_, ?_, by omega, fun _ => ⟨k, by omega, he⟩⟩
      · dsimp only
        rw [List.range_succ, List.filter_append, ← h1]
        simp [he]
      · intro j hj
        by_cases hjk : j = k
        · subst hjk; dsimp only; rw [he]; exact D.lt_irrefl _
        · exact h2 j (by omega)
    · rw [if_neg he]
      by_cases hl : D.lt (tot k) s0.2 = true
      · rw [if_pos hl]
        refine ⟨?_, ?_, by omega, fun _ => ⟨k, by omega, rfl⟩⟩
        · dsimp only
          rw [List.range_succ, List.filter_append]
          have : (List.range k).filter (fun i => decide (tot i = tot k)) = [] := by
            rw [List.filter_eq_nil_iff]
            intro i hi
            simp only [List.mem_range] at hi
            simp only [decide_eq_true_eq]
            intro hc
            have := h2 i hi
            rw [hc, hl] at this
            simp at this
          rw [this]; simp
        · intro j hj
          dsimp only
          by_cases hjk : j = k
          · subst hjk; exact D.lt_irrefl _
          · by_contra hc
            have hc : D.lt (tot j) (tot k) = true := by simpa using hc
            have := D.lt_trans hc hl
            rw [h2 j (by omega)] at this
            simp at this
      · rw [if_neg hl]
        have hk : 0 < k := by
          by_contra hc
          have : k = 0 := by omega
          subst this
          exact he (h3 rfl).symm
        obtain ⟨j, hj, hjm⟩ := h4 hk
        refine ⟨?_, ?_, by omega, fun _ => ⟨j, by omega, hjm⟩⟩
        · rw [List.range_succ, List.filter_append, ← h1]
          simp [he]
        · intro j hj
          by_cases hjk : j = k
          · subst hjk; simpa using hl
          · exact h2 j (by omega)

/-- `collectMinima` returns the indices of the minima, in order. -/
theorem collectMinima_eq {n : Nat} (hn : 0 < n) (tot : Nat → D) :
    ∃ l, Scratch.collectMinima n tot = .ok l ∧
      l = (List.range n).filter (fun i => (List.range n).all fun j => !D.lt (tot j) (tot i)) ∧
      l ≠ [] := by
  obtain ⟨h1, h2, _, h4⟩ := collectMinima_fold tot n _ rfl
  refine ⟨_, by unfold Scratch.collectMinima; rw [if_pos hn], ?_, ?_⟩
  · rw [h1]
    apply List.filter_congr
    intro i hi
    obtain ⟨j, hj, hjm⟩ := h4 hn
    rw [Bool.eq_iff_iff]
    simp only [decide_eq_true_eq, List.all_eq_true, List.mem_range, Bool.not_eq_true']
    constructor
    · intro he j hj; rw [he]; exact h2 j hj
    · intro hall
      have a := hall j hj
      rw [hjm] at a
      exact D.lt_total (h2 i (List.mem_range.1 hi)) a
  · obtain ⟨j, hj, hjm⟩ := h4 hn
    rw [h1]
    intro hc
    have : j ∈ ([] : List Nat) := by rw [← hc]; simp [hj, hjm]
    simp at this

/-! ### neighbour reordering -/

theorem swapAt_perm : ∀ (l : List Nat) (i : Nat), (Scratch.swapAt l i).Perm l
  | [], i => by cases i <;> exact List.Perm.refl _
  | [a], i => by
    cases i with
    | zero => exact List.Perm.refl _
    | succ i => exact List.Perm.cons a (swapAt_perm [] i)
  | a :: b :: l, 0 => List.Perm.swap a b l
  | a :: b :: l, i+1 => List.Perm.cons a (swapAt_perm (b :: l) i)

theorem rndswap_perm (l : List Nat) (t : Tape) : (Scratch.rndswap l t).1.Perm l := by
  unfold Scratch.rndswap
  split
  · exact swapAt_perm _ _
  · split
    · dsimp only
      split
      · exact List.Perm.refl _
      · exact swapAt_perm _ _
    · exact List.Perm.refl _

/-- The neighbour lists are reorderings of the original ones. -/
def VnOK (P : Prob) (S : Scratch) : Prop := ∀ u, u < P.nv → (S.vn u).Perm (P.vn u)

theorem mixQueues_spec (wf : P.WF) {u : Nat} (hu : u < P.nv) {S : Scratch} (hS : VnOK P S) :
    Ok (Scratch.mixQueues P u S) (fun S' => VnOK P S') := by
  unfold Scratch.mixQueues
  have hp := rndswap_perm (S.vn u) S.tape
  generalize Scratch.rndswap (S.vn u) S.tape = r at hp ⊢
  obtain ⟨l, t⟩ := r
  dsimp only at *
  have hvn : ∀ x, x < P.nv → (upd S.vn u l x).Perm (P.vn x) := by
    intro x hx
    by_cases hxu : x = u
    · subst hxu; simp; exact hp.trans (hS x hx)
    · simpa [hxu] using hS x hx
  split
  · exact Ok.pure hvn
  next hl =>
  have hlt := pick_lt (n := l.length) (by omega) t
  generalize pick l.length t = r at hlt ⊢
  obtain ⟨i, t'⟩ := r
  dsimp only at *
  rw [List.getElem?_eq_getElem hlt]
  dsimp only
  have hm : l[i] ∈ P.vn u := (hS u hu).mem_iff.1 (hp.mem_iff.1 (List.getElem_mem hlt))
  have := wf.vn_lt u _ hu hm
  have hnf := wf.nf_le
  rw [if_pos (by unfold Prob.N at this; omega)]
  exact Ok.pure hvn

/-! ### root distances -/

theorem atChain_spec (hR : Dom P R) (hE : EInv P R E) {wb : Int} {qw : Nat → D} {v : Nat}
    (tot : Nat → D) :
    Ok (Scratch.atChain P E wb qw v tot) (fun tot' => ∀ q, tot' q ≠ none → tot q ≠ none) := by
  unfold Scratch.atChain
  split
  · exact Ok.pure (fun _ h => h)
  next hf =>
  have hv : v < P.nv := by simpa [Prob.fixed] using hf
  refine Ok.foldlM' (fun (tot' : Nat → D) => ∀ q, tot' q ≠ none → tot q ≠ none) (fun _ h => h) ?_
  intro q tot1 hq ih
  have hq := (Chain.mem_keys.1 hq).2
  rw [if_pos (hR.lt v q hv (hE.dom v q hv hq))]
  refine Ok.pure ?_
  intro x hx
  by_cases hxq : x = q
  · subst hxq
    simp only [upd_same] at hx
    split at hx
    · next h => exact ih x h.1
    · simp at hx
  · simp only [ne_eq, hxq, not_false_eq_true, upd_ne] at hx
    exact ih x hx

/-- What the root distances and the scratch arrays say about a possible root. -/
structure RootOK (P : Prob) (A : Nat → Prop) (E : Emb) (wb : Int) (u : Nat) (tot : Nat → D)
    (S : Scratch) : Prop where
  tot : ∀ q, q < P.nq → tot q ≠ none → P.accepts u q = true ∧ E.w q < wb ∧
    ∀ v ∈ P.vn u, E.NE v → S.vis v q = 1 ∧ S.dist v q ≠ none
  srch : ∀ v ∈ P.vn u, E.NE v → Searched P A E S v ∧
    ∀ p, S.vis v p = Scratch.prepVisited P u v p ∨ S.vis v p = 1

theorem prepDistances_ne {u q : Nat} (h : Scratch.prepDistances P u q ≠ none) :
    P.accepts u q = true := by
  unfold Scratch.prepDistances at h
  by_contra hc
  simp [hc] at h

theorem accum_ne {wb : Int} {vis : Nat → Int} {dist tot : Nat → D} {q : Nat} (hq : q < P.nq)
    (h : Scratch.accum P E wb vis dist tot q ≠ none) :
    vis q = 1 ∧ tot q ≠ none ∧ dist q ≠ none ∧ E.w q < wb := by
  unfold Scratch.accum at h
  rw [if_pos hq] at h
  by_contra hc
  rw [if_neg (fun hx => hc ⟨hx.1, hx.2.1, hx.2.2.2.1, hx.2.2.2.2⟩)] at h
  exact h rfl

theorem rootSerial_spec (wf : P.WF) (hR : Dom P R) (hE : EInv P R E) {wb : Int}
    {weight : Int → Int → D} {u : Nat} (hu : u < P.nv) {S : Scratch} (hS : VnOK P S) :
    Ok (Scratch.rootSerial P weight E wb u S) (fun r => r.2.vn = S.vn ∧
      RootOK P (EligB P E wb u) E wb u r.1 r.2) := by
  unfold Scratch.rootSerial
  dsimp only
  have hperm := hS u hu
  have hnd : (S.vn u).Nodup := hperm.nodup_iff.2 (wf.vn_nodup u hu)
  refine Ok.bind (Ok.foldlM (fun done (r : (Nat → D) × Nat × Scratch) =>
      r.2.2.vn = S.vn ∧
      (∀ q, q < P.nq → r.1 q ≠ none → P.accepts u q = true ∧ (r.2.1 ≠ 0 → E.w q < wb) ∧
        ∀ v ∈ done, E.NE v → r.2.2.vis v q = 1 ∧ r.2.2.dist v q ≠ none) ∧
      (∀ v ∈ done, E.NE v → Searched P (EligB P E wb u) E r.2.2 v ∧
        ∀ p, r.2.2.vis v p = Scratch.prepVisited P u v p ∨ r.2.2.vis v p = 1)) ?_ ?_) ?_
  · exact ⟨rfl, fun q _ h => ⟨prepDistances_ne h, by simp, by simp⟩, by simp⟩
  · rintro done v ⟨tot, n, S1⟩ hv ⟨rest, hrest⟩ ⟨i1, i2, i3⟩
    dsimp only at *
    have hvP := hperm.mem_iff.1 hv
    have hvN := wf.vn_lt u v hu hvP
    have hvd : v ∉ done := by
      rw [hrest, List.nodup_append] at hnd
      intro hc; exact hnd.2.2 v hc v (by simp) rfl
    have hsz := hE.size_iff hvN
    split
    · next h0 =>
      have hnot : ¬ E.NE v := fun hc => (hsz.2 hc) h0
      refine Ok.pure ⟨i1, ?_, ?_⟩
      · intro q hq ht
        obtain ⟨a, b, c⟩ := i2 q hq ht
        refine ⟨a, b, ?_⟩
        intro x hx hN
        rcases List.mem_append.1 hx with h | h
        · exact c x h hN
        · rw [List.mem_singleton.1 h] at hN; exact absurd hN hnot
      · intro x hx hN
        rcases List.mem_append.1 hx with h | h
        · exact i3 x h hN
        · rw [List.mem_singleton.1 h] at hN; exact absurd hN hnot
    · refine Ok.bind (distancesFrom_spec (A := EligB P E wb u) wf hR hE (u := u) hvN (by
        intro p hp h hw
        refine ⟨?_, hw.imp (fun hf => ⟨v, hvP, hf⟩) id⟩
        rcases h with h | h
        · exact ⟨hp, Or.inl h⟩
        · exact ⟨hp, Or.inr ⟨v, hvP, h⟩⟩)) ?_
      rintro S2 ⟨o1, o2, o3⟩
      refine Ok.bind (atChain_spec hR hE tot) ?_
      intro tot2 ht2
      refine Ok.pure ⟨o1.vn.trans i1, ?_, ?_⟩
      · intro q hq ht
        obtain ⟨a1, a2, a3, a4⟩ := accum_ne hq ht
        obtain ⟨a, b, c⟩ := i2 q hq (ht2 q a2)
        refine ⟨a, fun _ => a4, ?_⟩
        intro x hx hN
        rcases List.mem_append.1 hx with h | h
        · have hxv : x ≠ v := by rintro rfl; exact hvd h
          dsimp only
          rw [o1.vis x hxv, o1.dist x hxv]; exact c x h hN
        · rw [List.mem_singleton.1 h]; exact ⟨a1, a3⟩
      · intro x hx hN
        rcases List.mem_append.1 hx with h | h
        · have hxv : x ≠ v := by rintro rfl; exact hvd h
          dsimp only
          unfold Searched
          rw [o1.vis x hxv, o1.dist x hxv, o1.par x hxv]; exact i3 x h hN
        · rw [List.mem_singleton.1 h]; exact ⟨o2, o3⟩
  · rintro ⟨tot, n, S1⟩ ⟨i1, i2, i3⟩
    dsimp only at *
    refine Ok.pure ⟨i1, ?_, ?_⟩
    · intro q hq ht
      dsimp only at ht ⊢
      by_cases hn : n = 0
      · rw [if_pos hn] at ht
        simp only [if_pos hq] at ht
        by_cases hw : wb ≤ E.w q
        · simp [hw] at ht
        · rw [if_neg hw] at ht
          have ht' : tot q ≠ none := by
            intro hc
            rw [hc] at ht
            unfold Scratch.dmax at ht
            cases hqw : weight (E.maxWeight 0 P.nq) (E.w q) with
            | none => rw [hqw] at ht; simp [D.lt] at ht
            | some x => rw [hqw] at ht; simp [D.lt] at ht
          obtain ⟨a, _, c⟩ := i2 q hq ht'
          exact ⟨a, by omega, fun v hv => c v (hperm.mem_iff.2 hv)⟩
      · rw [if_neg hn] at ht
        obtain ⟨a, b, c⟩ := i2 q hq ht
        exact ⟨a, b hn, fun v hv => c v (hperm.mem_iff.2 hv)⟩
    · intro v hv; exact i3 v (hperm.mem_iff.2 hv)

theorem rootParallel_spec (wf : P.WF) (hR : Dom P R) (hE : EInv P R E) {wb : Int}
    {weight : Int → Int → D} {u : Nat} (hu : u < P.nv) {S : Scratch} (hS : VnOK P S) :
    Ok (Scratch.rootParallel P weight E wb u S) (fun r => r.2.vn = S.vn ∧
      RootOK P (EligB P E wb u) E wb u r.1 r.2) := by
  unfold Scratch.rootParallel
  dsimp only
  have hperm := hS u hu
  have hnd : (S.vn u).Nodup := hperm.nodup_iff.2 (wf.vn_nodup u hu)
  refine Ok.bind (Ok.foldlM (fun done (r : Nat × Scratch) =>
      r.2.vn = S.vn ∧ (r.1 ≠ 0 → ∃ v ∈ done, E.NE v) ∧
      (∀ v ∈ done, E.NE v → Searched P (EligB P E wb u) E r.2 v ∧
        ∀ p, r.2.vis v p = Scratch.prepVisited P u v p ∨ r.2.vis v p = 1)) ?_ ?_) ?_
  · exact ⟨rfl, by simp, by simp⟩
  · rintro done v ⟨n, S1⟩ hv ⟨rest, hrest⟩ ⟨i1, i2, i3⟩
    dsimp only at *
    have hvP := hperm.mem_iff.1 hv
    have hvN := wf.vn_lt u v hu hvP
    have hvd : v ∉ done := by
      rw [hrest, List.nodup_append] at hnd
      intro hc; exact hnd.2.2 v hc v (by simp) rfl
    have hsz := hE.size_iff hvN
    split
    · next h0 =>
      have hnot : ¬ E.NE v := fun hc => (hsz.2 hc) h0
      refine Ok.pure ⟨i1, ?_, ?_⟩
      · intro hn
        obtain ⟨x, hx, hN⟩ := i2 hn
        exact ⟨x, by simp [hx], hN⟩
      · intro x hx hN
        rcases List.mem_append.1 hx with h | h
        · exact i3 x h hN
        · rw [List.mem_singleton.1 h] at hN; exact absurd hN hnot
    · next h0 =>
      refine Ok.bind (distancesFrom_spec (A := EligB P E wb u) wf hR hE (u := u) hvN (by
        intro p hp h hw
        refine ⟨?_, hw.imp (fun hf => ⟨v, hvP, hf⟩) id⟩
        rcases h with h | h
        · exact ⟨hp, Or.inl h⟩
        · exact ⟨hp, Or.inr ⟨v, hvP, h⟩⟩)) ?_
      rintro S2 ⟨o1, o2, o3⟩
      refine Ok.pure ⟨o1.vn.trans i1, fun _ => ⟨v, by simp, hsz.1 h0⟩, ?_⟩
      intro x hx hN
      rcases List.mem_append.1 hx with h | h
      · have hxv : x ≠ v := by rintro rfl; exact hvd h
        dsimp only
        unfold Searched
        rw [o1.vis x hxv, o1.dist x hxv, o1.par x hxv]; exact i3 x h hN
      · rw [List.mem_singleton.1 h]; exact ⟨o2, o3⟩
  rintro ⟨n, S1⟩ ⟨i1, i2, i3⟩
  dsimp only at *
  refine Ok.bind (P := fun (tot : Nat → D) => ∀ q, tot q ≠ none → P.accepts u q = true) ?_ ?_
  · refine Ok.foldlM' (fun (tot : Nat → D) => ∀ q, tot q ≠ none → P.accepts u q = true)
      (fun q h => prepDistances_ne h) ?_
    intro v tot hv ih
    exact (atChain_spec hR hE tot).mono (fun tot' h q hq => ih q (h q hq))
  intro tot htot
  -- the accumulation over all neighbours
  have hacc : ∀ (l : List Nat) (tot0 : Nat → D), (∀ v ∈ l, v ∈ P.vn u) →
      ∀ q, q < P.nq → l.foldl (init := tot0) (fun tot v =>
        if E.chainsize P v = 0 then tot else Scratch.accum P E wb (S1.vis v) (S1.dist v) tot) q ≠ none →
      tot0 q ≠ none ∧ (∀ v ∈ l, E.NE v → S1.vis v q = 1 ∧ S1.dist v q ≠ none ∧ E.w q < wb) := by
    intro l
    induction l with
    | nil => intro tot0 _ q _ h; exact ⟨h, by simp⟩
    | cons v l ih =>
      intro tot0 hl q hq h
      rw [List.foldl_cons] at h
      obtain ⟨h1, h2⟩ := ih _ (fun x hx => hl x (by simp [hx])) q hq h
      have hsz := hE.size_iff (wf.vn_lt u v hu (hl v (by simp)))
      by_cases h0 : E.chainsize P v = 0
      · rw [if_pos h0] at h1
        refine ⟨h1, ?_⟩
        intro x hx hN
        rcases List.mem_cons.1 hx with rfl | hx
        · exact absurd h0 (hsz.2 hN)
        · exact h2 x hx hN
      · rw [if_neg h0] at h1
        obtain ⟨a1, a2, a3, a4⟩ := accum_ne hq h1
        refine ⟨a2, ?_⟩
        intro x hx hN
        rcases List.mem_cons.1 hx with rfl | hx
        · exact ⟨a1, a3, a4⟩
        · exact h2 x hx hN
  refine Ok.pure ⟨i1, ?_, ?_⟩
  · intro q hq ht
    dsimp only at ht ⊢
    rw [i1] at ht
    have hmem : ∀ v ∈ S.vn u, v ∈ P.vn u := fun v hv => hperm.mem_iff.1 hv
    by_cases hn : n = 0
    · rw [if_pos hn] at ht
      simp only [if_pos hq] at ht
      by_cases hw : wb ≤ E.w q
      · simp [hw] at ht
      · rw [if_neg hw] at ht
        obtain ⟨a, b⟩ := hacc _ _ hmem q hq ht
        exact ⟨htot q a, by omega, fun v hv hN =>
          ⟨(b v (hperm.mem_iff.2 hv) hN).1, (b v (hperm.mem_iff.2 hv) hN).2.1⟩⟩
    · rw [if_neg hn] at ht
      obtain ⟨a, b⟩ := hacc _ _ hmem q hq ht
      obtain ⟨v, hv, hN⟩ := i2 hn
      exact ⟨htot q a, (b v hv hN).2.2, fun v hv hN =>
          ⟨(b v (hperm.mem_iff.2 hv) hN).1, (b v (hperm.mem_iff.2 hv) hN).2.1⟩⟩
  · intro v hv; exact i3 v (hperm.mem_iff.2 hv)

/-! ### find_chain -/

/-- `u` got a chain linked to all non-empty neighbours; everything else as before. -/
structure Rebuilt (P : Prob) (E E' : Emb) (u : Nat) : Prop where
  links : ∀ x y, x < P.N → (E'.L x y = true ↔ if x = u then (y = u ∨ (y ∈ P.vn u ∧ E.NE y))
    else if y = u then (x ∈ P.vn u ∧ E.NE x) else E.L x y = true)
  ne : ∀ v, E'.NE v ↔ (E.NE v ∨ v = u)

theorem Built.rebuilt {E' E'' : Emb} {u : Nat} (hu : u < P.N) (hE' : EInv P R E')
    (h : Built P E E' u (fun v => v ∈ P.vn u ∧ E.NE v)) (hs : SameView E' E'') :
    Rebuilt P E E'' u := by
  constructor
  · intro x y hx
    rw [hs.links]; exact h.view x y hx
  · intro v
    rw [hs.ne]
    by_cases hvu : v = u
    · subst hvu
      simp only [or_true, iff_true]
      exact hE'.L_ne hu ((h.view v v hu).2 (by simp))
    · unfold Emb.NE; simp [Chain.has_congr (h.par v hvu), hvu]

theorem findChain_full (wf : P.WF) (hR : Dom P R) (he : P.Even) {C : Scratch.Cfg} {wb : Int}
    {cs u : Nat} (hu : u < P.nv) (hE : EInv P R E) (hown : E.chains u = Chain.empty u)
    (hno : ∀ v, v < P.N → (E.chains v).links u = none) {S : Scratch} (hS : VnOK P S) :
    Ok (Scratch.findChain P C wb cs u E S) (fun r => VnOK P r.2.1 ∧
      (r.2.2 = false → r.1 = E) ∧ (r.2.2 = true → EInv P R r.1 ∧ Rebuilt P E r.1 u) ∧
      ((∀ v ∈ P.vn u, P.fixed v = false) → ∀ q, r.1.w q ≤ max (E.w q) wb) ∧
      ∀ v, v ≠ u → r.1.chainsize P v ≤ E.chainsize P v ∨ cs = 0 ∨ r.1.chainsize P v ≤ cs) := by
  have huN : u < P.N := by unfold Prob.N; omega
  unfold Scratch.findChain
  refine Ok.bind (mixQueues_spec wf hu hS) ?_
  intro S1 hS1
  refine Ok.bind (P := fun r => r.2.vn = S1.vn ∧ RootOK P (EligB P E wb u) E wb u r.1 r.2) ?_ ?_
  · split
    · exact rootParallel_spec wf hR hE hu hS1
    · exact rootSerial_spec wf hR hE hu hS1
  rintro ⟨tot, S2⟩ ⟨hvn, hroot⟩
  dsimp only at *
  have hS2 : VnOK P S2 := by unfold VnOK; rw [hvn]; exact hS1
  obtain ⟨mins, m1, m2, m3⟩ := collectMinima_eq wf.nq_pos tot
  refine Ok.bind ⟨mins, m1, rfl⟩ ?_
  rintro _ rfl
  have hlt := pick_lt (n := mins.length) (by
    cases mins with
    | nil => exact absurd rfl m3
    | cons => simp) S2.tape
  generalize pick mins.length S2.tape = r at hlt ⊢
  obtain ⟨i, t⟩ := r
  dsimp only at *
  rw [List.getElem?_eq_getElem hlt]
  dsimp only
  have hq0 : mins[i] < P.nq := by
    have hall : ∀ x ∈ mins, x < P.nq := by
      rw [m2]; intro x hx; exact List.mem_range.1 (List.mem_filter.1 hx).1
    exact hall _ (List.getElem_mem hlt)
  generalize mins[i] = q0 at hq0 ⊢
  split
  · exact Ok.pure ⟨hS2, fun _ => rfl, by simp, fun _ q => by dsimp only; omega,
      fun v _ => Or.inl (Nat.le_refl _)⟩
  next htot =>
  obtain ⟨r1, r2, r3⟩ := hroot.tot q0 hq0 htot
  have hperm := hS2 u hu
  refine Ok.bind (hE.constructSteiner wf hR hu hperm hown hno (A := EligB P E wb u)
    (fun p hp => hp.1.dom hR hu) ⟨⟨hq0, Or.inl r1⟩, Or.inr r2⟩ ?_ ?_) ?_
  · intro v hv hN
    have hv := hperm.mem_iff.1 hv
    obtain ⟨a, b⟩ := r3 v hv hN
    exact (hroot.srch v hv hN).1 q0 hq0 a b
  · intro v hv hN p hp hvis hd
    have hv := hperm.mem_iff.1 hv
    obtain ⟨a, b⟩ := hroot.srch v hv hN
    refine a p hp.1.1 ?_ hd
    rcases b p with h | h
    · rw [hp.1.vis he hu hv] at h; exact absurd h hvis
    · exact h
  rintro ⟨E1, t1⟩ ⟨b1, b2, b3, b4⟩
  dsimp only at *
  refine Ok.bind (b1.flipBack_full wf hR hu (cs := cs) (fun v hv => hperm.mem_iff.1 hv) ?_) ?_
  · intro v hv hN
    have hvP := hperm.mem_iff.1 hv
    have hvu : v ≠ u := by rintro rfl; exact wf.vn_irr v hu hvP
    refine (b2.view u v huN).2 ?_
    rw [if_pos rfl]
    refine Or.inr ⟨hvP, ?_⟩
    obtain ⟨q, hq⟩ := hN
    exact ⟨q, by rw [← Chain.has_congr (b2.par v hvu)]; exact hq⟩
  rintro E2 ⟨f1, f2, f3⟩
  refine Ok.pure ⟨hS2, by simp, fun _ => ⟨f1, b2.rebuilt huN b1 f2⟩, ?_, ?_⟩
  · intro hfree q
    have g1 := f3.w q
    have g2 := b1.exact q
    have g3 := hE.exact q
    have g4 := cnt_change (p := fun v => (E.chains v).has q) (p' := fun v => (E1.chains v).has q)
      (k := u) huN (fun i hi => Chain.has_congr (b2.par i hi) q)
    rw [hown, empty_chain_has] at g4
    dsimp only
    cases hh : (E1.chains u).has q with
    | false => rw [hh] at g4; simp at g4; omega
    | true =>
      rw [hh] at g4
      simp at g4
      rcases (b4 q hh).2 with ⟨v, hv, hf⟩ | hw
      · rw [hfree v hv] at hf; simp at hf
      · omega
  · intro v hv
    have g : E1.chainsize P v = E.chainsize P v :=
      cnt_congr (fun i _ => Chain.has_congr (b2.par v hv) i)
    rcases f3.size v with h | ⟨_, h⟩
    · left; dsimp only; omega
    · exact Or.inr h

theorem findChain_spec (wf : P.WF) (hR : Dom P R) (he : P.Even) {C : Scratch.Cfg} {wb : Int}
    {cs u : Nat} (hu : u < P.nv) (hE : EInv P R E) (hown : E.chains u = Chain.empty u)
    (hno : ∀ v, v < P.N → (E.chains v).links u = none) {S : Scratch} (hS : VnOK P S) :
    Ok (Scratch.findChain P C wb cs u E S) (fun r => VnOK P r.2.1 ∧
      (r.2.2 = false → r.1 = E) ∧ (r.2.2 = true → EInv P R r.1 ∧ Rebuilt P E r.1 u)) :=
  (findChain_full wf hR he hu hE hown hno hS).mono (fun _ h => ⟨h.1, h.2.1, h.2.2.1⟩)


end MM
