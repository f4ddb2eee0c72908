import Verif.Core.FindShort

/-! Building a chain and tearing it out again, and freezing and thawing, change nothing. -/

namespace MM

open Chain (WD)

variable {P : Prob} {E : Emb}

namespace Chain

theorem bump_same {c c' : Chain} {q : Nat} {d : Int} (h : bump c q d = .ok c') :
    c'.label = c.label ∧ c'.links = c.links ∧ ∀ x, c'.has x = c.has x := by
  unfold bump at h
  cases hc : c.data q with
  | none => rw [hc] at h; simp at h
  | some e =>
    rw [hc] at h
    simp only [Except.ok.injEq] at h
    subst h
    refine ⟨rfl, rfl, ?_⟩
    intro x
    unfold has
    by_cases hx : x = q
    · subst hx; simp [hc]
    · simp [hx]

theorem setLink_same {c c' : Chain} {x q : Nat} (h : setLink c x q = .ok c') :
    c'.label = c.label ∧ c'.links = upd c.links x (some q) ∧ ∀ y, c'.has y = c.has y :=
  bump_same (c := { c with links := upd c.links x (some q) }) h

theorem addLeaf_same {c c' : Chain} {w w' : Wt} {nq q p : Nat} (hq : c.has q = false)
    (h : addLeaf nq c w q p = .ok (c', w')) : c'.label = c.label ∧ WD c w c' w' := by
  unfold addLeaf at h
  split at h
  · simp only [hq, Bool.false_eq_true, if_false, bind, Except.bind] at h
    cases hb : bump { c with data := upd c.data q (some ⟨p, 0⟩) } p 1 with
    | error e => rw [hb] at h; simp at h
    | ok c2 =>
      rw [hb] at h
      simp only [Except.ok.injEq, Prod.mk.injEq] at h
      obtain ⟨rfl, rfl⟩ := h
      obtain ⟨h1, _, h3⟩ := bump_same hb
      refine ⟨h1, ?_⟩
      intro x
      rw [h3]
      unfold has at hq ⊢
      by_cases hx : x = q
      · subst hx; simp [hq, ind]
      · simp [hx]
  · simp at h

theorem trimLeaf_same {c c' : Chain} {w w' : Wt} {q r : Nat} (h : trimLeaf c w q = .ok (c', w', r)) :
    c'.label = c.label ∧ WD c w c' w' := by
  unfold trimLeaf at h
  cases hc : c.data q with
  | none => rw [hc] at h; simp at h
  | some e =>
    rw [hc] at h
    dsimp only at h
    split at h
    · simp only [bind, Except.bind] at h
      cases hb : bump c e.parent (-1) with
      | error e => rw [hb] at h; simp at h
      | ok c1 =>
        rw [hb] at h
        simp only [Except.ok.injEq, Prod.mk.injEq] at h
        obtain ⟨rfl, rfl, rfl⟩ := h
        obtain ⟨h1, _, h3⟩ := bump_same hb
        refine ⟨h1, ?_⟩
        intro x
        have := h3 x
        unfold has at this ⊢
        by_cases hx : x = q
        · subst hx; simp [hc, ind]
        · simp [hx, this]
    · simp only [Except.ok.injEq, Prod.mk.injEq] at h
      obtain ⟨rfl, rfl, rfl⟩ := h
      exact ⟨rfl, WD.refl _ _⟩

theorem trimBranchLoop_same : ∀ (fuel : Nat) {c c' : Chain} {w w' : Wt} {q r : Nat},
    trimBranchLoop fuel c w q = .ok (c', w', r) → c'.label = c.label ∧ WD c w c' w' := by
  intro fuel
  induction fuel with
  | zero => intro c c' w w' q r h; simp [trimBranchLoop] at h
  | succ fuel ih =>
    intro c c' w w' q r h
    unfold trimBranchLoop at h
    cases ht : trimLeaf c w q with
    | error e => rw [ht] at h; simp [bind, Except.bind] at h
    | ok r1 =>
      obtain ⟨c1, w1, p⟩ := r1
      rw [ht] at h
      simp only [bind, Except.bind] at h
      obtain ⟨h1, h2⟩ := trimLeaf_same ht
      split at h
      · simp only [Except.ok.injEq, Prod.mk.injEq] at h
        obtain ⟨rfl, rfl, rfl⟩ := h
        exact ⟨h1, h2⟩
      · obtain ⟨h3, h4⟩ := ih h
        exact ⟨h3.trans h1, h2.trans h4⟩

theorem linkPathLoop_same {nq : Nat} {par : Nat → Option Nat} : ∀ (fuel : Nat) {c c' o : Chain} {w w' : Wt} {q p a b : Nat},
    linkPathLoop nq par fuel c o w q p = .ok (c', w', a, b) → c'.label = c.label ∧ WD c w c' w' := by
  intro fuel
  induction fuel with
  | zero => intro c c' o w w' q p a b h; simp [linkPathLoop] at h
  | succ fuel ih =>
    intro c c' o w w' q p a b h
    unfold linkPathLoop at h
    split at h
    · simp only [Except.ok.injEq, Prod.mk.injEq] at h
      obtain ⟨rfl, rfl, _, _⟩ := h
      exact ⟨rfl, WD.refl _ _⟩
    · simp only [bind, Except.bind] at h
      by_cases hp : c.has p = true
      · rw [if_pos hp] at h
        cases ht : trimBranch nq c w q with
        | error e => rw [ht] at h; simp at h
        | ok r1 =>
          obtain ⟨c1, w1, r⟩ := r1
          rw [ht] at h
          simp only [pure, Except.pure] at h
          obtain ⟨h1, h2⟩ := trimBranchLoop_same _ ht
          cases hpp : par p with
          | none => rw [hpp] at h; simp at h
          | some p' =>
            rw [hpp] at h
            obtain ⟨h3, h4⟩ := ih h
            exact ⟨h3.trans h1, h2.trans h4⟩
      · rw [if_neg hp] at h
        cases ht : addLeaf nq c w p q with
        | error e => rw [ht] at h; simp at h
        | ok r1 =>
          obtain ⟨c1, w1⟩ := r1
          rw [ht] at h
          dsimp only at h
          obtain ⟨h1, h2⟩ := addLeaf_same (by simpa using hp) ht
          cases hpp : par p with
          | none => rw [hpp] at h; simp at h
          | some p' =>
            rw [hpp] at h
            obtain ⟨h3, h4⟩ := ih h
            exact ⟨h3.trans h1, h2.trans h4⟩

/-- Linking changes the other chain by one `set_link`. -/
theorem linkPath_same {nq : Nat} {par : Nat → Option Nat} {c c' o o' : Chain} {w w' : Wt} {q : Nat}
    (h : linkPath nq c o w q par = .ok (c', o', w')) :
    c'.label = c.label ∧ WD c w c' w' ∧ ∃ p, setLink o c.label p = .ok o' := by
  unfold linkPath at h
  have main : ∀ (c1 : Chain) (w1 : Wt) (q1 p1 : Nat), c1.label = c.label → WD c w c1 w1 →
      (do let c2 ← setLink c1 o.label q1
          let o2 ← setLink o c1.label p1
          (.ok (c2, o2, w1) : M (Chain × Chain × Wt))) = .ok (c', o', w') →
      c'.label = c.label ∧ WD c w c' w' ∧ ∃ p, setLink o c.label p = .ok o' := by
    intro c1 w1 q1 p1 h1 h2 h
    simp only [bind, Except.bind] at h
    cases ha : setLink c1 o.label q1 with
    | error e => rw [ha] at h; simp at h
    | ok c2 =>
      rw [ha] at h
      dsimp only at h
      cases hb : setLink o c1.label p1 with
      | error e => rw [hb] at h; simp at h
      | ok o2 =>
        rw [hb] at h
        simp only [Except.ok.injEq, Prod.mk.injEq] at h
        obtain ⟨rfl, rfl, rfl⟩ := h
        obtain ⟨a1, _, a3⟩ := setLink_same ha
        refine ⟨a1.trans h1, h2.trans (WD.of_eq a3), p1, by rw [← h1]; exact hb⟩
  cases hp : par q with
  | none =>
    rw [hp] at h
    exact main c w q q rfl (WD.refl _ _) h
  | some p =>
    rw [hp] at h
    simp only [bind, Except.bind] at h
    cases hl : linkPathLoop nq par (nq + 1) c o w q p with
    | error e => rw [hl] at h; simp at h
    | ok r =>
      obtain ⟨c1, w1, q1, p1⟩ := r
      rw [hl] at h
      obtain ⟨h1, h2⟩ := linkPathLoop_same _ hl
      exact main c1 w1 q1 p1 h1 h2 h

/-- Dropping a link that was just set. -/
theorem drop_set {c c' : Chain} {x q : Nat} (h : setLink c x q = .ok c') (hn : c.links x = none) :
    dropLink c' x = .ok (c, some q) := by
  unfold setLink bump at h
  cases hd : c.data q with
  | none => simp [hd] at h
  | some e =>
    simp only [hd, Except.ok.injEq] at h
    subst h
    simp only [dropLink, upd_same, bump, bind, Except.bind]
    obtain ⟨l, d, k⟩ := c
    simp only [Except.ok.injEq, Prod.mk.injEq, Chain.mk.injEq, true_and, and_true]
    dsimp only at hd hn
    constructor
    · funext y
      by_cases hy : y = q
      · subst hy; simp [hd]
      · simp [hy]
    · funext y
      by_cases hy : y = x
      · subst hy; simp [hn]
      · simp [hy]

/-- Setting a link that was just dropped. -/
theorem set_drop {c c' : Chain} {x q : Nat} (h : dropLink c x = .ok (c', some q)) :
    setLink c' x q = .ok c := by
  unfold dropLink at h
  cases hl : c.links x with
  | none => rw [hl] at h; simp at h
  | some q' =>
    rw [hl] at h
    simp only [bind, Except.bind, bump] at h
    cases hd : c.data q' with
    | none => rw [hd] at h; simp at h
    | some e =>
      rw [hd] at h
      simp only [Except.ok.injEq, Prod.mk.injEq, Option.some.injEq] at h
      obtain ⟨rfl, rfl⟩ := h
      simp only [setLink, bump, upd_same]
      obtain ⟨l, d, k⟩ := c
      simp only [Except.ok.injEq, Chain.mk.injEq, true_and]
      dsimp only at hd hl
      constructor
      · funext y
        by_cases hy : y = q'
        · subst hy; simp [hd]
        · simp [hy]
      · funext y
        by_cases hy : y = x
        · subst hy; simp [hl]
        · simp [hy]

end Chain

/-- Invariant of a loop that ended normally. -/
theorem fold_inv {α β : Type} {f : β → α → M β} {l : List α} {b r : β} (h : l.foldlM f b = .ok r)
    (I : List α → β → Prop) (h0 : I [] b)
    (hstep : ∀ done a b b', (∃ rest, l = done ++ a :: rest) → I done b → f b a = .ok b' → I (done ++ [a]) b') :
    I l r := by
  suffices hs : ∀ (l' done : List α) (b : β), l = done ++ l' → I done b → l'.foldlM f b = .ok r → I l r by
    exact hs l [] b rfl h0 h
  intro l'
  induction l' with
  | nil =>
    intro done b hl hi hr
    simp only [List.foldlM_nil, pure, Except.pure, Except.ok.injEq] at hr
    subst hr; rw [hl, List.append_nil]; exact hi
  | cons a l' ih =>
    intro done b hl hi hr
    rw [List.foldlM_cons] at hr
    cases hf : f b a with
    | error e => rw [hf] at hr; simp [bind, Except.bind] at hr
    | ok b' =>
      rw [hf] at hr
      exact ih (done ++ [a]) b' (by simp [hl]) (hstep done a b b' ⟨l', hl⟩ hi hf) hr

theorem not_mem_done {l done rest : List Nat} {v : Nat} (hnd : l.Nodup) (h : l = done ++ v :: rest) : v ∉ done := by
  rw [h] at hnd
  intro hc
  exact (List.nodup_append.1 hnd).2.2 v hc v (by simp) rfl

/-- One round trip: a chain for `u` is built along arbitrary recorded paths and torn out. -/
theorem build_tear {u q : Nat} {par : Nat → Nat → Option Nat} {dist : Nat → Nat → D} {vis : Nat → Nat → Int}
    {t t' : Tape} {F E' : Emb} {vnu : List Nat} (hnd : vnu.Nodup) (hu : u ∉ vnu)
    (hown : E.chains u = Chain.empty u) (hno : ∀ v ∈ vnu, (E.chains v).links u = none)
    (hb : Emb.constructSteiner P E vnu u q par dist vis t = .ok (F, t'))
    (ht : Emb.tearOut F vnu u = .ok E') : E' = E := by
  -- after the construction
  have h1 : (F.chains u).label = u ∧ F.fr = E.fr ∧ (∀ x, F.w x = E.w x + ind ((F.chains u).has x)) ∧
      (∀ v, v ≠ u → v ∉ vnu → F.chains v = E.chains v) ∧
      (∀ v ∈ vnu, F.chains v = E.chains v ∨ ∃ p, Chain.setLink (E.chains v) u p = .ok (F.chains v)) := by
    unfold Emb.constructSteiner at hb
    cases hr : Chain.setRoot P.Q (E.chains u) E.w q with
    | error e => rw [hr] at hb; simp [bind, Except.bind] at hb
    | ok r =>
      obtain ⟨c, w⟩ := r
      rw [hr] at hb
      dsimp only [bind, Except.bind] at hb
      have hc : c.label = u ∧ ∀ x, w x = E.w x + ind (c.has x) := by
        unfold Chain.setRoot at hr
        split at hr
        · simp only [Except.ok.injEq, Prod.mk.injEq] at hr
          obtain ⟨rfl, rfl⟩ := hr
          rw [hown]
          refine ⟨rfl, ?_⟩
          intro x
          by_cases hx : x = q
          · subst hx; simp [Chain.empty, Chain.has, ind]
          · simp [Chain.empty, Chain.has, ind, hx]
        · simp at hr
      refine fold_inv hb (I := fun done (G : Emb × Tape) => (G.1.chains u).label = u ∧ G.1.fr = E.fr ∧
            (∀ x, G.1.w x = E.w x + ind ((G.1.chains u).has x)) ∧
            (∀ v, v ≠ u → v ∉ done → G.1.chains v = E.chains v) ∧
            (∀ v ∈ done, G.1.chains v = E.chains v ∨ ∃ p, Chain.setLink (E.chains v) u p = .ok (G.1.chains v))) ?_ ?_
      · refine ⟨?_, rfl, ?_, ?_, ?_⟩
        · simpa using hc.1
        · intro x; simpa using hc.2 x
        · intro v hv _; simp [hv]
        · simp
      · rintro done v ⟨G, s⟩ ⟨G', s'⟩ ⟨rest, hd⟩ ⟨g1, g2, g3, g4, g5⟩ hf
        have hvd := not_mem_done hnd hd
        have hvm : v ∈ vnu := by rw [hd]; simp
        have hvu : v ≠ u := fun hc => hu (hc ▸ hvm)
        dsimp only at g1 g2 g3 g4 g5 hf
        by_cases hs : G.chainsize P v ≠ 0
        · rw [if_pos hs] at hf
          generalize G.iter P u s = it at hf
          obtain ⟨ks, s1⟩ := it
          dsimp only at hf
          cases hq : Emb.steinerPick P (G.chains u) ks q v vis dist with
          | error e => rw [hq] at hf; simp at hf
          | ok qv =>
            rw [hq] at hf
            dsimp only at hf
            cases hl : Chain.linkPath P.Q (G.chains u) (G.chains v) G.w qv (par v) with
            | error e => rw [hl] at hf; simp at hf
            | ok r =>
              obtain ⟨c1, o1, w1⟩ := r
              rw [hl] at hf
              simp only [Except.ok.injEq, Prod.mk.injEq] at hf
              obtain ⟨rfl, rfl⟩ := hf
              obtain ⟨k1, k2, p, k3⟩ := Chain.linkPath_same hl
              rw [g1, g4 v hvu hvd] at k3
              refine ⟨?_, g2, ?_, ?_, ?_⟩
              · simp [Ne.symm hvu, k1, g1]
              · intro x
                have := k2 x
                rw [g3 x] at this
                simp only [upd_ne _ _ (Ne.symm hvu), upd_same]
                omega
              · intro y hy hyd
                simp only [List.mem_append, List.mem_singleton, not_or] at hyd
                simp [hyd.2, hy, g4 y hy hyd.1]
              · intro y hy
                simp only [List.mem_append, List.mem_singleton] at hy
                by_cases hyv : y = v
                · subst hyv
                  right; exact ⟨p, by simpa using k3⟩
                · have hyd := hy.resolve_right hyv
                  have hyu : y ≠ u := fun hc => hu (by rw [← hc, hd]; simp [hyd])
                  simpa [hyv, hyu] using g5 y hyd
        · rw [if_neg hs] at hf
          simp only [Except.ok.injEq, Prod.mk.injEq] at hf
          obtain ⟨rfl, rfl⟩ := hf
          refine ⟨g1, g2, g3, ?_, ?_⟩
          · intro y hy hyd
            simp only [List.mem_append, List.mem_singleton, not_or] at hyd
            exact g4 y hy hyd.1
          · intro y hy
            simp only [List.mem_append, List.mem_singleton] at hy
            rcases hy with hy | rfl
            · exact g5 y hy
            · exact Or.inl (g4 _ hvu hvd)
  obtain ⟨g1, g2, g3, g4, g5⟩ := h1
  unfold Emb.tearOut Chain.clear at ht
  dsimp only at ht
  obtain ⟨k1, k2, k3, k4, k5⟩ : E'.chains u = Chain.empty u ∧ E'.fr = E.fr ∧ (∀ x, E'.w x = E.w x) ∧
      (∀ v ∈ vnu, E'.chains v = E.chains v) ∧ (∀ v, v ≠ u → v ∉ vnu → E'.chains v = F.chains v) := by
    refine fold_inv ht (I := fun done (G : Emb) => G.chains u = Chain.empty u ∧ G.fr = E.fr ∧ (∀ x, G.w x = E.w x) ∧
        (∀ v ∈ done, G.chains v = E.chains v) ∧ (∀ v, v ≠ u → v ∉ done → G.chains v = F.chains v)) ?_ ?_
    · refine ⟨by simp [g1], g2, ?_, by simp, ?_⟩
      · intro x
        have := g3 x
        show F.w x - ind ((F.chains u).has x) = E.w x
        omega
      · intro v hv _; simp [hv]
    · rintro done v G G' ⟨rest, hd⟩ ⟨k1, k2, k3, k4, k5⟩ hf
      have hvd := not_mem_done hnd hd
      have hvm : v ∈ vnu := by rw [hd]; simp
      have hvu : v ≠ u := fun hc => hu (hc ▸ hvm)
      have hdrop : ∃ r, Chain.dropLink (G.chains v) u = .ok (E.chains v, r) := by
        rw [k5 v hvu hvd]
        rcases g5 v hvm with he | ⟨p, hp⟩
        · rw [he]
          unfold Chain.dropLink
          rw [hno v hvm]
          exact ⟨none, rfl⟩
        · exact ⟨_, Chain.drop_set hp (hno v hvm)⟩
      obtain ⟨r, hr⟩ := hdrop
      simp only [bind, Except.bind] at hf
      rw [hr] at hf
      simp only [Except.ok.injEq] at hf
      subst hf
      refine ⟨?_, k2, k3, ?_, ?_⟩
      · simp [Ne.symm hvu, k1]
      · intro y hy
        simp only [List.mem_append, List.mem_singleton] at hy
        by_cases hyv : y = v
        · subst hyv; simp
        · simp [hyv, k4 y (hy.resolve_right hyv)]
      · intro y hy hyd
        simp only [List.mem_append, List.mem_singleton, not_or] at hyd
        simp [hyd.2, k5 y hy hyd.1]
  obtain ⟨ec, ew, ef⟩ := E
  obtain ⟨ec', ew', ef'⟩ := E'
  simp only [Emb.mk.injEq]
  dsimp only at *
  refine ⟨?_, funext k3, k2⟩
  funext v
  by_cases hv : v = u
  · subst hv; rw [k1, hown]
  · by_cases hm : v ∈ vnu
    · exact k4 v hm
    · rw [k5 v hv hm, g4 v hv hm]

/-- Freezing and thawing restores chains and fills. -/
theorem freeze_thaw {u n : Nat} {E1 E2 : Emb} (hlab : (E.chains u).label = u)
    (hf : Emb.freezeOut P E u = .ok (E1, n)) (ht : Emb.thawBack P E1 u = .ok E2) :
    (∀ v, E2.chains v = E.chains v) ∧ E2.w = E.w := by
  unfold Emb.freezeOut at hf
  dsimp only [bind, Except.bind] at hf
  split at hf
  · simp at hf
  · next r hr =>
    obtain ⟨G, pr⟩ := r
    simp only [Except.ok.injEq, Prod.mk.injEq] at hf
    obtain ⟨rfl, rfl⟩ := hf
    have h1 : (∀ v ∈ List.range P.N, G v = E.chains v ∧ pr v = none ∨
          v ≠ u ∧ ∃ q, Chain.dropLink (E.chains v) u = .ok (G v, q) ∧ pr v = some q) ∧
        (∀ v, v ∉ List.range P.N → G v = E.chains v ∧ pr v = none) ∧ pr u = none := by
      refine fold_inv hr (I := fun done (x : (Nat → Chain) × (Nat → Option (Option Nat))) =>
        (∀ v ∈ done, x.1 v = E.chains v ∧ x.2 v = none ∨
          v ≠ u ∧ ∃ q, Chain.dropLink (E.chains v) u = .ok (x.1 v, q) ∧ x.2 v = some q) ∧
        (∀ v, v ∉ done → x.1 v = E.chains v ∧ x.2 v = none) ∧ x.2 u = none) ?_ ?_
      · simp
      · rintro done v ⟨G, pr⟩ ⟨G', pr'⟩ ⟨rest, hd⟩ ⟨g1, g2, g3⟩ hf
        have hvd := not_mem_done List.nodup_range hd
        dsimp only at g1 g2 g3 hf
        by_cases hc : ((E.chains u).links v).isSome = true ∧ v ≠ u
        · rw [if_pos hc] at hf
          cases hdr : Chain.dropLink (G v) u with
          | error e => rw [hdr] at hf; simp at hf
          | ok oq =>
            obtain ⟨o, q⟩ := oq
            rw [hdr] at hf
            simp only [Except.ok.injEq, Prod.mk.injEq] at hf
            obtain ⟨rfl, rfl⟩ := hf
            rw [(g2 v hvd).1] at hdr
            refine ⟨?_, ?_, ?_⟩
            · intro y hy
              simp only [List.mem_append, List.mem_singleton] at hy
              by_cases hyv : y = v
              · subst hyv; right; exact ⟨hc.2, q, by simpa using hdr, by simp⟩
              · simpa [hyv] using g1 y (hy.resolve_right hyv)
            · intro y hy
              simp only [List.mem_append, List.mem_singleton, not_or] at hy
              simpa [hy.2] using g2 y hy.1
            · simpa [Ne.symm hc.2] using g3
        · rw [if_neg hc] at hf
          simp only [Except.ok.injEq, Prod.mk.injEq] at hf
          obtain ⟨rfl, rfl⟩ := hf
          refine ⟨?_, ?_, g3⟩
          · intro y hy
            simp only [List.mem_append, List.mem_singleton] at hy
            rcases hy with hy | rfl
            · exact g1 y hy
            · exact Or.inl (g2 _ hvd)
          · intro y hy
            simp only [List.mem_append, List.mem_singleton, not_or] at hy
            exact g2 y hy.1
    obtain ⟨a1, a2, a3⟩ := h1
    unfold Emb.thawBack at ht
    dsimp only [bind, Except.bind] at ht
    split at ht
    · simp at ht
    · next H hH =>
      simp only [Except.ok.injEq] at ht
      subst ht
      have hw : (fun q => E.w q - ind ((E.chains u).has q) + ind ((E.chains u).data q).isSome) = E.w := by
        funext q
        have : (E.chains u).has q = ((E.chains u).data q).isSome := rfl
        rw [this]; omega
      refine ⟨?_, hw⟩
      have h2 : (∀ v ∈ List.range P.N, H v = E.chains v) ∧ (∀ v, v ∉ List.range P.N → v ≠ u → H v = G v) ∧
          H u = E.chains u := by
        have hcu : (Chain.mk (upd G u (Chain.empty (E.chains u).label) u).label (E.chains u).data
            (fun v => ((upd G u (Chain.empty (E.chains u).label) u).links v).or ((E.chains u).links v))) = E.chains u := by
          simp [Chain.empty]
        rw [hcu] at hH
        refine fold_inv hH (I := fun done (x : Nat → Chain) => (∀ v ∈ done, x v = E.chains v) ∧
          (∀ v, v ∉ done → v ≠ u → x v = G v) ∧ x u = E.chains u) ?_ ?_
        · refine ⟨by simp, ?_, by simp⟩
          intro v _ hv; simp [hv]
        · rintro done v X X' ⟨rest, hd⟩ ⟨g1, g2, g3⟩ hf
          have hvd := not_mem_done List.nodup_range hd
          have hvr : v ∈ List.range P.N := by rw [hd]; simp
          rcases a1 v hvr with ⟨b1, b2⟩ | ⟨bv, q, b1, b2⟩
          · rw [b2] at hf
            simp only [Except.ok.injEq] at hf
            subst hf
            refine ⟨?_, ?_, g3⟩
            · intro y hy
              simp only [List.mem_append, List.mem_singleton] at hy
              rcases hy with hy | rfl
              · exact g1 y hy
              · by_cases hyu : y = u
                · rw [hyu]; exact g3
                · rw [g2 y hvd hyu, b1]
            · intro y hy hyu
              simp only [List.mem_append, List.mem_singleton, not_or] at hy
              exact g2 y hy.1 hyu
          · rw [b2] at hf
            cases q with
            | none => simp at hf
            | some p =>
              dsimp only at hf
              rw [g2 v hvd bv, Chain.set_drop b1] at hf
              simp only [Except.ok.injEq] at hf
              subst hf
              refine ⟨?_, ?_, by simp [Ne.symm bv, g3]⟩
              · intro y hy
                simp only [List.mem_append, List.mem_singleton] at hy
                by_cases hyv : y = v
                · subst hyv; simp
                · simp [hyv, g1 y (hy.resolve_right hyv)]
              · intro y hy hyu
                simp only [List.mem_append, List.mem_singleton, not_or] at hy
                simp [hy.2, g2 y hy.1 hyu]
      obtain ⟨c1, c2, c3⟩ := h2
      intro v
      dsimp only
      by_cases hvr : v ∈ List.range P.N
      · exact c1 v hvr
      · by_cases hvu : v = u
        · rw [hvu]; exact c3
        · rw [c2 v hvr hvu, (a2 v hvr).1]

end MM
