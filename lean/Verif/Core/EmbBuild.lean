import Verif.Core.EmbInv
import Mathlib.Data.List.Perm.Subperm

/-! Building a chain: `construct_chain_steiner`. -/

namespace MM

open Chain (CInv zero Near SelfPres Tight WD WD2 PathTo)

variable {P : Prob} {R : Nat → Nat → Prop} {E : Emb}

theorem nodup_length_le {l : List Nat} {n : Nat} (hn : l.Nodup) (hl : ∀ x ∈ l, x < n) :
    l.length ≤ n := by
  have := (List.subperm_of_subset (l₂ := List.range n) hn (fun x hx => by
    simpa using hl x hx)).length_le
  simpa using this

theorem PathTo.list {adj : Nat → Nat → Prop} {A T : Nat → Prop} {par : Nat → Option Nat}
    {n q : Nat} (h : PathTo adj A T par n q) :
    ∃ l : List Nat, l.length = n ∧ l.Nodup ∧
      ∀ x ∈ l, A x ∧ ∃ m, 0 < m ∧ m ≤ n ∧ PathTo adj A T par m x := by
  induction h with
  | base => exact ⟨[], rfl, List.nodup_nil, by simp⟩
  | @step n q p hT hA hp ha hrest ih =>
    obtain ⟨l, hlen, hnd, hall⟩ := ih
    refine ⟨q :: l, by simp [hlen], List.nodup_cons.2 ⟨?_, hnd⟩, ?_⟩
    · intro hc
      obtain ⟨_, m, _, hm, hpm⟩ := hall q hc
      have := hpm.unique (PathTo.step hT hA hp ha hrest)
      omega
    · intro x hx
      rcases List.mem_cons.1 hx with rfl | hx
      · exact ⟨hA, n + 1, by omega, le_refl _, PathTo.step hT hA hp ha hrest⟩
      · obtain ⟨h1, m, h2, h3, h4⟩ := hall x hx
        exact ⟨h1, m, h2, by omega, h4⟩

theorem PathTo.len_le {adj : Nat → Nat → Prop} {A T : Nat → Prop} {par : Nat → Option Nat}
    {n q b : Nat} (h : PathTo adj A T par n q) (hA : ∀ x, A x → x < b) : n ≤ b := by
  obtain ⟨l, hlen, hnd, hall⟩ := PathTo.list h
  rw [← hlen]
  exact nodup_length_le hnd (fun x hx => hA x (hall x hx).1)

/-- The chain made by `set_root` on an empty chain. -/
theorem rootChain_inv {nv nq : Nat} {adj : Nat → Nat → Prop} {u q : Nat} (hu : u < nv)
    (hq : q < nq) :
    CInv nv nq adj zero ⟨u, upd (fun _ => none) q (some ⟨q, 2⟩),
      upd (fun _ => none) u (some q)⟩ := by
  have dat : ∀ i e, upd (fun _ => (none : Option Entry)) q (some ⟨q, 2⟩) i = some e →
      i = q ∧ e = ⟨q, 2⟩ := by
    intro i e he
    by_cases hi : i = q
    · subst hi; simp at he; exact ⟨rfl, he.symm⟩
    · simp [hi] at he
  have lnk : ∀ x p, upd (fun _ => (none : Option Nat)) u (some q) x = some p → x = u ∧ p = q := by
    intro x p hp
    by_cases hx : x = u
    · subst hx; simp at hp; exact ⟨rfl, hp.symm⟩
    · simp [hx] at hp
  constructor
  · exact hu
  · intro i e he; obtain ⟨rfl, _⟩ := dat i e he; exact hq
  · intro x p hp; obtain ⟨rfl, _⟩ := lnk x p hp; exact hu
  · intro x p hp; obtain ⟨_, rfl⟩ := lnk x p hp; simp [Chain.has]
  · intro i e he; obtain ⟨rfl, rfl⟩ := dat i e he; simp [Chain.has]
  · intro i e he
    obtain ⟨rfl, rfl⟩ := dat i e he
    have h1 := cnt_change (p := fun _ => false)
      (p' := fun x => upd (fun _ => (none : Option Nat)) u (some i) x == some i) (k := u) hu
      (fun x hx => by simp [hx])
    have h2 := cnt_change (p := fun _ => false)
      (p' := Chain.isPar ⟨u, upd (fun _ => none) i (some ⟨i, 2⟩), upd (fun _ => none) u (some i)⟩ i)
      (k := i) hq (fun x hx => by simp [hx, Chain.isPar])
    have z1 : cnt (fun _ => false) nv = 0 := cnt_eq_zero.2 (fun _ _ => rfl)
    have z2 : cnt (fun _ => false) nq = 0 := cnt_eq_zero.2 (fun _ _ => rfl)
    simp only [z1, z2, upd_same, Chain.isPar] at h1 h2
    simp at h1 h2
    simp only [Chain.linkCnt, Chain.parCnt, zero]
    rw [h1]
    rw [h2]
    omega
  · intro i e he; obtain ⟨rfl, rfl⟩ := dat i e he; exact Or.inl rfl
  · refine ⟨fun _ => 0, ?_⟩
    intro i e he hne; obtain ⟨rfl, rfl⟩ := dat i e he; exact absurd rfl hne

/-- Putting a root chain in for a variable that has no chain. -/
theorem EInv.setRoot (h : EInv P R E) {u q : Nat} (hu : u < P.nv) (hq : q < P.Q) (hRq : R u q)
    (hown : E.chains u = Chain.empty u) (hno : ∀ v, v < P.N → (E.chains v).links u = none) :
    ∃ c w, Chain.setRoot P.Q (E.chains u) E.w q = .ok (c, w) ∧
      c = ⟨u, upd (fun _ => none) q (some ⟨q, 2⟩), upd (fun _ => none) u (some q)⟩ ∧
      EInv P R { E with chains := upd E.chains u c, w := w } := by
  have huN : u < P.N := by unfold Prob.N; omega
  refine ⟨⟨u, upd (fun _ => none) q (some ⟨q, 2⟩), upd (fun _ => none) u (some q)⟩,
    upd E.w q (E.w q + 1), ?_, rfl, ?_⟩
  · rw [hown]; simp [Chain.setRoot, Chain.empty, hq, Chain.has]
  have hc := rootChain_inv (adj := P.adj) huN hq
  have lnk : ∀ x p, upd (fun _ => (none : Option Nat)) u (some q) x = some p → x = u ∧ p = q := by
    intro x p hp
    by_cases hx : x = u
    · subst hx; simp at hp; exact ⟨rfl, hp.symm⟩
    · simp [hx] at hp
  refine ⟨⟨?_, ?_, ?_, ?_, ?_, ?_, ?_⟩, ?_⟩
  · intro v hv
    dsimp only
    by_cases hvu : v = u
    · subst hvu; simpa using hc
    · simpa [hvu] using h.cinv v hv
  · intro v hv
    dsimp only
    by_cases hvu : v = u
    · subst hvu; simp
    · simpa [hvu] using h.lab v hv
  · intro a b x ha hb hab hl
    dsimp only at *
    by_cases hau : a = u
    · subst hau
      simp only [upd_same] at hl
      exact absurd (lnk _ _ hl).1 (Ne.symm hab)
    · simp only [ne_eq, hau, not_false_eq_true, upd_ne] at hl
      by_cases hbu : b = u
      · subst hbu; rw [hno a ha] at hl; simp at hl
      · obtain ⟨p, hp, hn⟩ := h.sym a b x ha hb hab hl
        exact ⟨p, by simpa [hbu] using hp, hn⟩
  · intro a b x ha hb hab hl
    dsimp only at *
    by_cases hau : a = u
    · subst hau
      simp only [upd_same] at hl
      exact absurd (lnk _ _ hl).1 (Ne.symm hab)
    · simp only [ne_eq, hau, not_false_eq_true, upd_ne] at hl
      exact h.nbr a b x ha hb hab hl
  · intro v r hv hl
    dsimp only at *
    by_cases hvu : v = u
    · subst hvu
      simp only [upd_same, Option.some.injEq] at hl
      subst hl
      intro i hi
      simp only [upd_same, Chain.parents] at hi
      by_cases hiq : i = q
      · exact hiq
      · simp [hiq] at hi
    · simp only [ne_eq, hvu, not_false_eq_true, upd_ne] at hl ⊢
      exact h.root v r hv hl
  · intro v x hv hx
    dsimp only at *
    by_cases hvu : v = u
    · subst hvu
      simp only [upd_same, Chain.has] at hx
      by_cases hxq : x = q
      · subst hxq; exact hRq
      · simp [hxq] at hx
    · simp only [ne_eq, hvu, not_false_eq_true, upd_ne] at hx
      exact h.dom v x hv hx
  · intro v x hv hvN
    dsimp only
    have hvu : v ≠ u := by omega
    simp only [ne_eq, hvu, not_false_eq_true, upd_ne]
    exact h.fixd v x hv hvN
  · refine Exact.one h.exact huN ?_
    intro x
    rw [hown, empty_chain_has]
    by_cases hxq : x = q
    · subst hxq; simp [Chain.has]
    · simp [Chain.has, hxq]

/-- The Steiner qubit is the given one or a qubit of the chain with a known distance. -/
theorem steinerPick_spec {c : Chain} {ks : List Nat} {q v : Nat} {vis : Nat → Nat → Int}
    {dist : Nat → Nat → D} (hq : q < P.nq) (hks : ∀ p ∈ ks, c.has p = true ∧ p < P.nq) :
    Ok (Emb.steinerPick P c ks q v vis dist) (fun qv => qv = q ∨
      (c.has qv = true ∧ vis v qv ≠ 0 ∧ dist v qv ≠ none)) := by
  unfold Emb.steinerPick
  refine Ok.bind (P := fun _ => True) ⟨if vis v q ≠ 0 then dist v q else none, by simp only [Emb.seen, if_pos hq], trivial⟩ ?_
  intro d0 _
  refine Ok.bind (P := fun (r : Nat × D) => r.1 = q ∨
      (c.has r.1 = true ∧ vis v r.1 ≠ 0 ∧ dist v r.1 ≠ none)) ?_ ?_
  · refine Ok.foldlM' (fun (r : Nat × D) => r.1 = q ∨
      (c.has r.1 = true ∧ vis v r.1 ≠ 0 ∧ dist v r.1 ≠ none)) (Or.inl rfl) ?_
    rintro p ⟨qv, dqv⟩ hp hI
    obtain ⟨hcp, hpn⟩ := hks p hp
    obtain ⟨e, he⟩ := Chain.has_iff.1 hcp
    dsimp only
    rw [he]
    dsimp only
    split
    · simp only [Emb.seen, if_pos hpn, bind, Except.bind]
      refine Ok.pure ?_
      by_cases hlt : D.lt (if vis v p ≠ 0 then dist v p else none) dqv = true
      · rw [if_pos hlt]
        have hnn := D.lt_ne_none hlt
        by_cases hv : vis v p = 0
        · simp [hv] at hnn
        · simp only [ne_eq, hv, not_false_eq_true, if_true] at hnn
          exact Or.inr ⟨hcp, hv, hnn⟩
      · rw [if_neg hlt]; exact hI
    · exact Ok.pure hI
  · rintro ⟨qv, d⟩ h; exact Ok.pure h

theorem Chain.mem_keys {c : Chain} {nq q : Nat} : q ∈ c.keys nq ↔ q < nq ∧ c.has q = true := by
  simp [Chain.keys]

/-- `E'` has a chain for `u` linked to the chains in `S`. -/
structure Built (P : Prob) (E E' : Emb) (u : Nat) (S : Nat → Prop) : Prop where
  par : ∀ v, v ≠ u → (E'.chains v).parents = (E.chains v).parents
  view : ∀ x y, x < P.N → (E'.L x y = true ↔ if x = u then (y = u ∨ S y)
    else if y = u then S x else E.L x y = true)

theorem EInv.constructSteiner (wf : P.WF) (hR : Dom P R) (h : EInv P R E) {u q : Nat}
    (hu : u < P.nv) {vnu : List Nat} (hvn : vnu.Perm (P.vn u))
    (hown : E.chains u = Chain.empty u) (hno : ∀ v, v < P.N → (E.chains v).links u = none)
    {A : Nat → Prop} (hA : ∀ p, A p → R u p) (hqA : A q)
    {par : Nat → Nat → Option Nat} {dist : Nat → Nat → D} {vis : Nat → Nat → Int} {t : Tape}
    (hq : ∀ v ∈ vnu, E.NE v →
      ∃ n, PathTo P.adj A (fun x => (E.chains v).has x = true) (par v) n q)
    (hp : ∀ v ∈ vnu, E.NE v → ∀ p, A p → vis v p ≠ 0 → dist v p ≠ none →
      ∃ n, PathTo P.adj A (fun x => (E.chains v).has x = true) (par v) n p) :
    Ok (Emb.constructSteiner P E vnu u q par dist vis t) (fun r => EInv P R r.1 ∧
      Built P E r.1 u (fun v => v ∈ P.vn u ∧ E.NE v) ∧ r.1.fr = E.fr ∧
      (∀ i, (r.1.chains u).has i = true → A i)) := by
  have huN : u < P.N := by unfold Prob.N; omega
  have hqn := hR.lt u q hu (hA q hqA)
  have hAlt : ∀ x, A x → x < P.Q := fun x hx => by
    have := hR.lt u x hu (hA x hx); unfold Prob.Q; omega
  obtain ⟨c, w, hs, hc, hE1⟩ := h.setRoot hu (by unfold Prob.Q; omega) (hA q hqA) hown hno
  unfold Emb.constructSteiner
  rw [hs]
  simp only [bind, Except.bind]
  have mono : ∀ {S S' : Nat → Prop} {E' : Emb}, (∀ v, S v ↔ S' v) → Built P E E' u S →
      Built P E E' u S' := by
    intro S S' E' hS hB
    have : S = S' := funext fun v => propext (hS v)
    rw [← this]; exact hB
  refine (Ok.foldlM (fun done (r : Emb × Tape) => EInv P R r.1 ∧
      Built P E r.1 u (fun v => v ∈ done ∧ E.NE v) ∧ r.1.fr = E.fr ∧
      Tight (r.1.chains u) ∧ (r.1.chains u).has q = true ∧
      (∀ i, (r.1.chains u).has i = true → A i)) ?_ ?_).mono ?_
  · refine ⟨hE1, ⟨?_, ?_⟩, rfl, ?_, ?_, ?_⟩
    · intro v hv; simp [hv]
    · intro x y hx
      unfold Emb.L
      by_cases hxu : x = u
      · subst hxu
        simp only [upd_same, hc, if_true, List.not_mem_nil, false_and, or_false]
        by_cases hyx : y = x
        · subst hyx; simp
        · simp [hyx]
      · simp only [ne_eq, hxu, not_false_eq_true, upd_ne, if_false, List.not_mem_nil, false_and]
        by_cases hyu : y = u
        · subst hyu; simp [hno x hx]
        · simp [hyu]
    · intro i e he
      simp only [upd_same, hc] at he
      by_cases hi : i = q
      · subst hi; simp at he; rw [← he]; simp
      · simp [hi] at he
    · simp [hc, Chain.has]
    · intro i hi
      simp only [upd_same, hc, Chain.has] at hi
      by_cases hiq : i = q
      · subst hiq; exact hqA
      · simp [hiq] at hi
  · rintro done v ⟨E1, t1⟩ hv ⟨rest, hrest⟩ ⟨i1, i2, i3, i4, i5, i6⟩
    dsimp only at *
    have hvP : v ∈ P.vn u := hvn.mem_iff.1 hv
    have hvN := wf.vn_lt u v hu hvP
    have hvu : v ≠ u := by intro hc; subst hc; exact wf.vn_irr v hu hvP
    have hnd : v ∉ done := by
      have : vnu.Nodup := hvn.nodup_iff.2 (wf.vn_nodup u hu)
      rw [hrest, List.nodup_append] at this
      intro hc
      exact this.2.2 v hc v (by simp) rfl
    have hNE : E1.NE v ↔ E.NE v := by
      unfold Emb.NE; simp [Chain.has_congr (i2.par v hvu)]
    have hsz := i1.size_iff hvN
    split
    · next hne =>
      have hNEv : E.NE v := hNE.1 (hsz.1 hne)
      have hT : (fun x => (E1.chains v).has x = true) = (fun x => (E.chains v).has x = true) := by
        funext x; rw [Chain.has_congr (i2.par v hvu)]
      -- the chosen qubit has a path
      obtain ⟨qv, hpick, hqv⟩ := steinerPick_spec (P := P) (c := E1.chains u)
        (ks := (E1.iter P u t1).1) (q := q) (v := v) (vis := vis) (dist := dist) hqn (by
          intro p hp
          have hp' := Chain.mem_keys.1 (permT_mem.1 hp)
          exact ⟨hp'.2, hR.lt u p hu (hA p (i6 p hp'.2))⟩)
      have hqvhas : (E1.chains u).has qv = true := by
        rcases hqv with rfl | h
        · exact i5
        · exact h.1
      obtain ⟨n, hpath⟩ : ∃ n, PathTo P.adj A (fun x => (E1.chains v).has x = true) (par v) n qv := by
        rw [hT]
        rcases hqv with rfl | ⟨h1, h2, h3⟩
        · exact hq v hv hNEv
        · exact hp v hv hNEv qv (i6 qv h1) h2 h3
      have hLuv : (E1.chains u).links v = none := by
        rw [← Emb.L_false]
        by_contra hc
        have := (i2.view u v huN).1 (by simpa using hc)
        simp [hvu, hnd] at this
      have hLvu : (E1.chains v).links u = none := by
        rw [← Emb.L_false]
        by_contra hc
        have := (i2.view v u hvN).1 (by simpa using hc)
        simp [hvu, hnd] at this
      obtain ⟨c', o', w', q', p', hl, k1, k2, k3, k4, k5, k6, k7, k8, k9, k10, k11, k12, k13⟩ :=
        Chain.linkPath_spec (w := E1.w) P.adj_symm hAlt (i1.cinv u huN) (i1.cinv v hvN) i4
          (by rw [i1.lab v hvN]; exact hLuv) (by rw [i1.lab u huN]; exact hLvu) hqvhas hpath
          (PathTo.len_le hpath hAlt)
      rw [i1.lab v hvN] at k7
      rw [i1.lab u huN] at k8
      refine ⟨({ E1 with chains := upd (upd E1.chains u c') v o', w := w' }, (E1.iter P u t1).2), ?_,
        ?_, ⟨?_, ?_⟩, i3, ?_, ?_, ?_⟩
      · simp only [hpick, hl]
      · refine i1.link2 huN hvN (Ne.symm hvu) k1 k2 (k5.trans (i1.lab u huN))
          (k6.trans (i1.lab v hvN)) k7 k8 k3 k9 (SelfPres.of_eq k10) (fun _ => hvP)
          (fun hvf => wf.vn_symm u v hu hvf hvP) ?_ ?_ (by omega) ?_ ?_
        · intro i _ hi
          rcases k13 i hi with hi | hi
          · exact hA i (i6 i hi)
          · exact hA i hi
        · intro i hvf hi
          rw [Chain.has_congr k10] at hi
          exact i1.dom v i hvf hi
        · intro _ i; exact Chain.has_congr k10 i
        · intro x
          have := k11 x
          rw [Chain.has_congr k10]; omega
      · intro x hx
        by_cases hxv : x = v
        · subst hxv; simp only [upd_same]; rw [k10]; exact i2.par x hx
        · simp [hxv, hx]; exact i2.par x hx
      · intro x y hx
        by_cases hxv : x = v
        · subst hxv
          have hv0 := i2.view x y hx
          unfold Emb.L at hv0 ⊢
          simp only [upd_same, k8, hvu, if_false] at hv0 ⊢
          by_cases hyu : y = u
          · subst hyu; simp [hNEv]
          · simpa [hyu] using hv0
        · by_cases hxu : x = u
          · subst hxu
            have hv0 := i2.view x y hx
            unfold Emb.L at hv0 ⊢
            simp only [ne_eq, hxv, not_false_eq_true, upd_ne, upd_same, k7, if_true] at hv0 ⊢
            by_cases hyv : y = v
            · subst hyv; simp [hNEv]
            · simp only [ne_eq, hyv, not_false_eq_true, upd_ne, List.mem_append, List.mem_singleton,
                or_false] at hv0 ⊢
              exact hv0
          · have hv0 := i2.view x y hx
            unfold Emb.L at hv0 ⊢
            simp only [ne_eq, hxv, hxu, not_false_eq_true, upd_ne, if_false, List.mem_append,
              List.mem_singleton, or_false] at hv0 ⊢
            exact hv0
      · simpa [Ne.symm hvu] using k4
      · simp [Ne.symm hvu]; exact k12 q i5
      · intro i hi
        simp only [ne_eq, Ne.symm hvu, not_false_eq_true, upd_ne, upd_same] at hi
        rcases k13 i hi with hi | hi
        · exact i6 i hi
        · exact hi
    · next hne =>
      have hnNE : ¬ E.NE v := fun hc => hne (hsz.2 (hNE.2 hc))
      refine Ok.pure ⟨i1, mono (fun x => ?_) i2, i3, i4, i5, i6⟩
      constructor
      · rintro ⟨h1, h2⟩; exact ⟨by simp [h1], h2⟩
      · rintro ⟨h1, h2⟩
        refine ⟨?_, h2⟩
        rcases List.mem_append.1 h1 with h1 | h1
        · exact h1
        · rw [List.mem_singleton.1 h1] at h2; exact absurd h2 hnNE
  · rintro ⟨E1, t1⟩ ⟨i1, i2, i3, i4, i5, i6⟩
    exact ⟨i1, mono (fun x => by rw [hvn.mem_iff]) i2, i3, i6⟩

end MM
