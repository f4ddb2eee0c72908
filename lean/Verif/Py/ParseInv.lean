import Verif.Py.Parse
import Verif.Graph.Result

/-! What `_input_parser` prepares. -/

namespace MM
namespace Py

variable {α : Type} [DecidableEq α]

/-! ### Chain maps -/

theorem chainNums_spec {TL : LabelDict α} : ∀ {l : List α} {c : List Int}, chainNums TL l = .ok c →
    List.Forall₂ (fun x (z : Int) => ∃ i : Nat, TL.idx x = some i ∧ z = i) l c := by
  intro l
  induction l with
  | nil => intro c h; cases h; exact .nil
  | cons x l ih =>
    intro c h
    unfold chainNums at h
    cases hx : TL.idx x with
    | none => rw [hx] at h; cases h
    | some i =>
      rw [hx] at h
      dsimp only at h
      cases hl : chainNums TL l with
      | error e => rw [hl] at h; cases h
      | ok d =>
        rw [hl] at h
        cases h
        exact .cons ⟨i, hx, rfl⟩ (ih hl)

theorem mem_insertKey {k : Int} {c : List Int} {m : ChainMap} (hk : k ∉ m.map Prod.fst) (kv : Int × List Int) :
    kv ∈ insertKey k c m ↔ kv = (k, c) ∨ kv ∈ m := by
  induction m with
  | nil => simp [insertKey]
  | cons a m ih =>
    unfold insertKey
    rw [List.map_cons, List.mem_cons, not_or] at hk
    split
    · simp
    · rw [if_neg hk.1, List.mem_cons, List.mem_cons, ih hk.2]
      constructor <;> (rintro (h | h | h) <;> simp [h])

theorem insertKey_keys {k : Int} {c : List Int} {m : ChainMap} (hk : k ∉ m.map Prod.fst) :
    ((insertKey k c m).map Prod.fst).Perm (k :: m.map Prod.fst) := by
  induction m with
  | nil => simp [insertKey]
  | cons a m ih =>
    unfold insertKey
    rw [List.map_cons, List.mem_cons, not_or] at hk
    split
    · simp
    · rw [if_neg hk.1, List.map_cons, List.map_cons]
      exact (List.Perm.cons _ (ih hk.2)).trans (List.Perm.swap _ _ _)

/-- The entry for an item of a dict. -/
def EntryOf (SL TL : LabelDict α) (e : α × List α) (kv : Int × List Int) : Prop :=
  e.2 ≠ [] ∧ (∃ i : Nat, SL.idx e.1 = some i ∧ kv.1 = i) ∧
    List.Forall₂ (fun x (z : Int) => ∃ i : Nat, TL.idx x = some i ∧ z = i) e.2 kv.2

theorem chainmap_spec {SL TL : LabelDict α} (hS : SL.WF) : ∀ {C : List (α × List α)} {m r : ChainMap},
    chainmap SL TL C m = .ok r → (C.map Prod.fst).Nodup → (m.map Prod.fst).Nodup →
    (∀ e ∈ C, ∀ i : Nat, SL.idx e.1 = some i → (i : Int) ∉ m.map Prod.fst) →
    (r.map Prod.fst).Nodup ∧ (∀ kv, kv ∈ r ↔ kv ∈ m ∨ ∃ e ∈ C, EntryOf SL TL e kv) ∧
    ∀ e ∈ C, e.2 ≠ [] → ∃ kv ∈ r, EntryOf SL TL e kv := by
  intro C
  induction C with
  | nil =>
    intro m r h _ hm _
    cases h
    exact ⟨hm, by simp, by simp⟩
  | cons e C ih =>
    intro m r h hC hm hfree
    unfold chainmap at h
    rw [List.map_cons, List.nodup_cons] at hC
    split at h
    · rename_i he
      obtain ⟨h1, h2, h3⟩ := ih h hC.2 hm (fun e' he' => hfree e' (by simp [he']))
      refine ⟨h1, ?_, ?_⟩
      · intro kv
        rw [h2 kv]
        constructor
        · rintro (h | ⟨e', he', h⟩)
          · exact .inl h
          · exact .inr ⟨e', by simp [he'], h⟩
        · rintro (h | ⟨e', he', h⟩)
          · exact .inl h
          · rcases List.mem_cons.mp he' with rfl | he'
            · exact absurd he h.1
            · exact .inr ⟨e', he', h⟩
      · intro e' he' hne
        rcases List.mem_cons.mp he' with rfl | he'
        · exact absurd he hne
        · exact h3 e' he' hne
    · rename_i he
      cases hc : chainNums TL e.2 with
      | error x => rw [hc] at h; cases h
      | ok c =>
        rw [hc] at h
        dsimp only at h
        cases hi : SL.idx e.1 with
        | none => rw [hi] at h; cases h
        | some i =>
          rw [hi] at h
          dsimp only at h
          have hk : (i : Int) ∉ m.map Prod.fst := hfree e (by simp) i hi
          have hkeys := insertKey_keys (c := c) hk
          have hent : EntryOf SL TL e ((i : Int), c) := ⟨he, ⟨i, hi, rfl⟩, chainNums_spec hc⟩
          obtain ⟨h1, h2, h3⟩ := ih h hC.2 (hkeys.nodup_iff.mpr (List.nodup_cons.mpr ⟨hk, hm⟩)) (by
            intro e' he' j hj hmem
            rcases List.mem_cons.mp (hkeys.mem_iff.mp hmem) with hji | hm'
            · have : j = i := by exact_mod_cast hji
              subst this
              have := hS.inj hj hi
              exact hC.1 (this ▸ List.mem_map_of_mem he')
            · exact hfree e' (by simp [he']) j hj hm')
          have huniq : ∀ kv, EntryOf SL TL e kv → kv = ((i : Int), c) := by
            rintro ⟨k, d⟩ ⟨_, ⟨j, hj, hk'⟩, hd⟩
            dsimp only at hk' hd
            rw [hi] at hj
            cases hj
            have : d = c := by
              have hc' := chainNums_spec hc
              clear h h1 h2 h3 hent hkeys hc
              generalize e.2 = l at hd hc'
              induction hd generalizing c with
              | nil => cases hc'; rfl
              | cons hab _ ih =>
                cases hc' with
                | cons hab' ht =>
                  obtain ⟨x, hx, rfl⟩ := hab
                  obtain ⟨y, hy, rfl⟩ := hab'
                  rw [hx] at hy
                  cases hy
                  rw [ih _ ht]
            rw [hk', this]
          refine ⟨h1, ?_, ?_⟩
          · intro kv
            rw [h2 kv, mem_insertKey hk]
            constructor
            · rintro ((h | h) | ⟨e', he', h⟩)
              · exact .inr ⟨e, by simp, h ▸ hent⟩
              · exact .inl h
              · exact .inr ⟨e', by simp [he'], h⟩
            · rintro (h | ⟨e', he', h⟩)
              · exact .inl (.inr h)
              · rcases List.mem_cons.mp he' with rfl | he'
                · exact .inl (.inl (huniq kv h))
                · exact .inr ⟨e', he', h⟩
          · intro e' he' hne
            rcases List.mem_cons.mp he' with rfl | he'
            · exact ⟨_, (h2 _).mpr (.inl ((mem_insertKey hk _).mpr (.inl rfl))), hent⟩
            · exact h3 e' he' hne

theorem chainmap_nil {SL TL : LabelDict α} (hS : SL.WF) {C : List (α × List α)} {r : ChainMap}
    (h : chainmap SL TL C [] = .ok r) (hC : (C.map Prod.fst).Nodup) :
    (r.map Prod.fst).Nodup ∧ (∀ kv, kv ∈ r ↔ ∃ e ∈ C, EntryOf SL TL e kv) ∧
    ∀ e ∈ C, e.2 ≠ [] → ∃ kv ∈ r, EntryOf SL TL e kv := by
  have := chainmap_spec hS h hC (by simp) (by simp)
  exact ⟨this.1, fun kv => by rw [this.2.1 kv]; simp, this.2.2⟩

/-! ### Pins -/

/-- Pushing an edge both ends of which are known. -/
theorem push_known {X : LGraph α} {a b : α} {i j : Nat} (ha : X.L.idx a = some i) (hb : X.L.idx b = some j) :
    (X.push a b).L = X.L := by
  unfold LGraph.push LabelDict.get
  rw [ha]
  dsimp only
  rw [hb]

theorem pinEdges_spec {p : α} : ∀ {blob : List α} {T T' : LGraph α} {es : List (α × α)}, pinEdges p blob T = .ok T' → T.Rep es →
    T'.Rep (es ++ blob.map fun q => (p, q)) ∧ T.L.Le T'.L ∧
    T'.L.label = (if blob = [] ∨ p ∈ T.L.label then T.L.label else T.L.label ++ [p]) ∧
    ∀ q ∈ blob, q ∈ T.L.label ∨ q = p := by
  intro blob
  induction blob with
  | nil =>
    intro T T' es h hT
    cases h
    exact ⟨by simpa using hT, .refl _, by simp, by simp⟩
  | cons q l ih =>
    intro T T' es h hT
    unfold pinEdges at h
    split at h
    · rename_i hq
      have hq : q ∈ T.L.label := (hT.wf.has_iff q).mp hq
      obtain ⟨i, hi⟩ := Option.isSome_iff_exists.mp ((hT.wf.has_iff q).mpr hq)
      have hlab : (T.push p q).L.label = if p ∈ T.L.label then T.L.label else T.L.label ++ [p] := by
        have h1 := hT.wf.get p
        have h2 := (h1.1.get q).2.2.2
        show ((T.L.get p).1.get q).1.label = _
        have hq' : q ∈ (T.L.get p).1.label := by
          rw [h1.2.2.2]
          split <;> simp [hq]
        rw [h2, if_pos hq', h1.2.2.2]
      obtain ⟨h1, h2, h3, h4⟩ := ih h (hT.push p q)
      have hp : p ∈ (T.push p q).L.label := by
        rw [hlab]; split
        · assumption
        · simp
      refine ⟨by simpa using h1, (LGraph.push_le hT.wf p q).trans h2, ?_, ?_⟩
      · rw [h3, if_pos (.inr hp), hlab]
        simp
      · intro r hr
        rcases List.mem_cons.mp hr with rfl | hr
        · exact .inl hq
        · rcases h4 r hr with h | h
          · rw [hlab] at h
            split at h
            · exact .inl h
            · rw [List.mem_append, List.mem_singleton] at h
              exact h
          · exact .inr h
    · cases h

/-- Looking the pin up first does not change the edge pushed. -/
theorem push_after_touch {X : LGraph α} (hw : X.L.WF) {v p : α} (hv : (X.L.get p).1.has v = true) :
    ({ X with L := (X.L.get p).1 } : LGraph α).push v p = X.push v p := by
  have h1 := hw.get p
  by_cases hvp : v = p
  · subst hvp
    have : ∀ L : LabelDict α, ∀ k, L.idx v = some k → L.get v = (L, k) := by
      intro L k hk
      unfold LabelDict.get
      rw [hk]
    unfold LGraph.push
    dsimp only
    rw [this (X.L.get v).1 _ h1.2.2.1]
    dsimp only
    rw [this (X.L.get v).1 _ h1.2.2.1]
  · have hvm : v ∈ X.L.label := by
      have := (h1.1.has_iff v).mp hv
      rw [h1.2.2.2] at this
      split at this
      · exact this
      · rw [List.mem_append, List.mem_singleton] at this
        exact this.resolve_right hvp
    obtain ⟨i, hi⟩ := Option.isSome_iff_exists.mp ((hw.has_iff v).mpr hvm)
    have e1 : X.L.get v = (X.L, i) := by unfold LabelDict.get; rw [hi]
    have e2 : (X.L.get p).1.get v = ((X.L.get p).1, i) := by
      have := h1.2.1.1 v i hi
      unfold LabelDict.get at this ⊢
      rw [this]
    have e3 : (X.L.get p).1.get p = ((X.L.get p).1, (X.L.get p).2) := by
      have := h1.2.2.1
      generalize X.L.get p = r at this
      unfold LabelDict.get
      rw [this]
    unfold LGraph.push
    dsimp only
    rw [e1, e2]
    dsimp only
    rw [e3]

/-- The blobs that are not empty: only they get a pin. -/
def realBlobs (l : List (α × α × List α)) : List (α × α × List α) := l.filter fun b => b.2.2 ≠ []

/-- State of the loops over `suspend_chains`: `l` are the blobs treated. -/
structure PInv (S0 T0 : LGraph α) (sE tE : List (α × α)) (fx : ChainMap) (l : List (α × α × List α)) (s : PState α) : Prop where
  S : s.S.Rep (sE ++ (realBlobs l).map fun b => (b.2.1, b.1))
  T : s.T.Rep (tE ++ (realBlobs l).flatMap fun b => b.2.2.map fun q => (b.1, q))
  leS : S0.L.Le s.S.L
  leT : T0.L.Le s.T.L
  labS : s.S.L.label = S0.L.label ++ (realBlobs l).map fun b => b.1
  labT : s.T.L.label = T0.L.label ++ (realBlobs l).map fun b => b.1
  keys : (s.fixedC.map Prod.fst).Nodup
  fixed : ∀ kv, kv ∈ s.fixedC ↔ kv ∈ fx ∨ ∃ b ∈ realBlobs l, ∃ i j : Nat, s.S.L.idx b.1 = some i ∧ s.T.L.idx b.1 = some j ∧
    kv = ((i : Int), [(j : Int)])
  pins : s.pins = (realBlobs l).length
  vs : ∀ b ∈ realBlobs l, b.2.1 ∈ s.S.L.label
  qs : ∀ b ∈ realBlobs l, ∀ q ∈ b.2.2, q ∈ s.T.L.label

theorem PInv.step {S0 T0 : LGraph α} {sE tE : List (α × α)} {fx : ChainMap} {l : List (α × α × List α)} {s s' : PState α}
    (I : PInv S0 T0 sE tE fx l s) (hfx : ∀ kv ∈ fx, ∃ i : Nat, kv.1 = i ∧ i < S0.L.label.length)
    {p v : α} {blob : List α} (h : addPin p v blob s = .ok s') :
    PInv S0 T0 sE tE fx (l ++ [(p, v, blob)]) s' := by
  unfold addPin at h
  split at h
  · cases h
  rename_i hpS
  split at h
  · cases h
  rename_i hpT
  have hpS : p ∉ s.S.L.label := fun hc => hpS ((I.S.wf.has_iff p).mpr hc)
  have hpT : p ∉ s.T.L.label := fun hc => hpT ((I.T.wf.has_iff p).mpr hc)
  cases hb : pinEdges p blob s.T with
  | error e => rw [hb] at h; cases h
  | ok T =>
    rw [hb] at h
    dsimp only at h
    obtain ⟨t1, t2, t3, t4⟩ := pinEdges_spec hb I.T
    split at h
    · rename_i he
      have hr : realBlobs (l ++ [(p, v, blob)]) = realBlobs l := by
        unfold realBlobs; rw [List.filter_append]; simp [he]
      cases h
      subst he
      cases hb
      exact ⟨by rw [hr]; exact I.S, by rw [hr]; exact I.T, I.leS, I.leT, by rw [hr]; exact I.labS,
        by rw [hr]; exact I.labT, I.keys, by rw [hr]; exact I.fixed, by rw [hr]; exact I.pins, by rw [hr]; exact I.vs, by rw [hr]; exact I.qs⟩
    · rename_i he
      split at h
      · rename_i hv
        have hr : realBlobs (l ++ [(p, v, blob)]) = realBlobs l ++ [(p, v, blob)] := by
          unfold realBlobs; rw [List.filter_append]; simp [he]
        have g1 := I.S.wf.get p
        have hSl : (s.S.L.get p).1.label = s.S.L.label ++ [p] := by rw [g1.2.2.2, if_neg hpS]
        have hTl : T.L.label = s.T.L.label ++ [p] := by rw [t3, if_neg (by simp [he, hpT])]
        have hpT' : p ∈ T.L.label := by rw [hTl]; simp
        obtain ⟨j, hj⟩ := Option.isSome_iff_exists.mp ((t1.wf.has_iff p).mpr hpT')
        have hgT : T.L.get p = (T.L, j) := by unfold LabelDict.get; rw [hj]
        have hps := push_after_touch I.S.wf hv
        have hvm : v ∈ (s.S.L.get p).1.label := (g1.1.has_iff v).mp hv
        obtain ⟨iv, hiv⟩ := Option.isSome_iff_exists.mp hv
        have hSL : (({ s.S with L := (s.S.L.get p).1 } : LGraph α).push v p).L = (s.S.L.get p).1 := push_known (X := { s.S with L := (s.S.L.get p).1 }) hiv g1.2.2.1
        cases h
        have hSrep := I.S.push v p
        rw [← hps] at hSrep
        have hidx : ∀ b ∈ realBlobs l, ∃ i j : Nat, s.S.L.idx b.1 = some i ∧ s.T.L.idx b.1 = some j := by
          intro b hb
          have m1 : b.1 ∈ s.S.L.label := by rw [I.labS]; exact List.mem_append_right _ (List.mem_map_of_mem hb)
          have m2 : b.1 ∈ s.T.L.label := by rw [I.labT]; exact List.mem_append_right _ (List.mem_map_of_mem hb)
          obtain ⟨i, hi⟩ := Option.isSome_iff_exists.mp ((I.S.wf.has_iff _).mpr m1)
          obtain ⟨k, hk⟩ := Option.isSome_iff_exists.mp ((I.T.wf.has_iff _).mpr m2)
          exact ⟨i, k, hi, hk⟩
        have hnew : (s.S.L.get p).2 = s.S.L.label.length := by
          unfold LabelDict.get
          rw [(I.S.wf.none_iff p).mpr hpS]
        have hkey : ((s.S.L.get p).2 : Int) ∉ s.fixedC.map Prod.fst := by
          intro hc
          obtain ⟨kv, hkv, he'⟩ := List.mem_map.mp hc
          rcases (I.fixed kv).mp hkv with h' | ⟨b, hb, i, k, hi, hk, h'⟩
          · obtain ⟨i, hi, hlt⟩ := hfx kv h'
            have : S0.L.label.length ≤ s.S.L.label.length := by rw [I.labS]; simp
            rw [hi, hnew] at he'
            have : i = s.S.L.label.length := by exact_mod_cast he'
            omega
          · have := I.S.wf.lt hi
            rw [h', hnew] at he'
            dsimp only at he'
            have : i = s.S.L.label.length := by exact_mod_cast he'
            omega
        refine ⟨?_, ?_, ?_, ?_, ?_, ?_, ?_, ?_, ?_, ?_, ?_⟩
        · rw [hr]
          simpa using hSrep
        · dsimp only
          rw [hr, hgT]
          simpa using t1
        · dsimp only
          rw [hSL]
          exact I.leS.trans g1.2.1
        · dsimp only
          rw [hgT]
          exact I.leT.trans t2
        · dsimp only
          rw [hSL, hSl, hr, I.labS]
          simp
        · dsimp only
          rw [hgT, hr]
          dsimp only
          rw [hTl, I.labT]
          simp
        · exact (insertKey_keys hkey).nodup_iff.mpr (List.nodup_cons.mpr ⟨hkey, I.keys⟩)
        · intro kv
          dsimp only
          rw [mem_insertKey hkey, I.fixed kv, hr, hSL, hgT]
          dsimp only
          constructor
          · rintro (h' | h' | ⟨b, hb, i, k, hi, hk, h'⟩)
            · exact .inr ⟨(p, v, blob), by simp, _, j, g1.2.2.1, hj, h'⟩
            · exact .inl h'
            · exact .inr ⟨b, by simp [hb], i, k, g1.2.1.1 _ _ hi, t2.1 _ _ hk, h'⟩
          · rintro (h' | ⟨b, hb, i, k, hi, hk, h'⟩)
            · exact .inr (.inl h')
            · rcases List.mem_append.mp hb with hb | hb
              · obtain ⟨i', k', hi', hk'⟩ := hidx b hb
                have e1 := g1.2.1.1 _ _ hi'
                have e2 := t2.1 _ _ hk'
                rw [hi] at e1
                rw [hk] at e2
                cases e1
                cases e2
                exact .inr (.inr ⟨b, hb, i, k, hi', hk', h'⟩)
              · rw [List.mem_singleton] at hb
                subst hb
                dsimp only at hi hk
                rw [g1.2.2.1] at hi
                rw [hj] at hk
                cases hi
                cases hk
                exact .inl h'
        · dsimp only
          rw [hr, I.pins]
          simp
        · intro b hb
          dsimp only
          rw [hSL]
          rw [hr] at hb
          rcases List.mem_append.mp hb with hb | hb
          · rw [hSl]
            exact List.mem_append_left _ (I.vs b hb)
          · rw [List.mem_singleton] at hb
            subst hb
            exact hvm
        · intro b hb q hq
          dsimp only
          rw [hgT]
          dsimp only
          rw [hTl]
          rw [hr] at hb
          rcases List.mem_append.mp hb with hb | hb
          · exact List.mem_append_left _ (I.qs b hb q hq)
          · rw [List.mem_singleton] at hb
            subst hb
            rcases t4 q hq with h' | h'
            · exact List.mem_append_left _ h'
            · rw [h']; simp
      · cases h

theorem PInv.all {S0 T0 : LGraph α} {sE tE : List (α × α)} {fx : ChainMap}
    (hfx : ∀ kv ∈ fx, ∃ i : Nat, kv.1 = i ∧ i < S0.L.label.length) :
    ∀ (r l : List (α × α × List α)) (s s' : PState α), PInv S0 T0 sE tE fx l s → addPins r s = .ok s' →
      PInv S0 T0 sE tE fx (l ++ r) s' := by
  intro r
  induction r with
  | nil => intro l s s' I h; cases h; simpa using I
  | cons b r ih =>
    intro l s s' I h
    unfold addPins at h
    cases hb : addPin b.1 b.2.1 b.2.2 s with
    | error e => rw [hb] at h; cases h
    | ok t =>
      rw [hb] at h
      have := ih (l ++ [b]) t s' (I.step hfx hb) h
      simpa using this

/-! ### The parser -/

/-- The edges read: those given and a self-loop for each node without edge. -/
structure ReadAs (edges : List (α × α)) (nodes : Option (List α)) (iso : List α) (X : LGraph α) : Prop where
  rep : X.Rep (edges ++ iso.map fun a => (a, a))
  iso : ∀ a, a ∈ iso ↔ (∀ e ∈ edges, a ≠ e.1 ∧ a ≠ e.2) ∧ ∃ ns, nodes = some ns ∧ a ∈ ns
  first : FirstOrder ((edges.flatMap fun e => [e.1, e.2]) ++ nodes.elim [] id) X.L.label

/-- What a successful `_input_parser` has prepared. -/
structure ParsedAs (pin : α → Nat → α) (a : Args α) (P : Parsed α) : Prop where
  ex : ∃ (S0 T0 : LGraph α) (isoS isoT : List α) (fx : ChainMap),
    ReadAs a.srcE a.srcN isoS S0 ∧ ReadAs a.tgtE a.tgtN isoT T0 ∧ S0.L.label ≠ [] ∧ T0.L.label ≠ [] ∧
    chainmap S0.L T0.L a.fixed [] = .ok fx ∧ chainmap S0.L T0.L a.initial [] = .ok P.initC ∧
    chainmap S0.L T0.L a.restr [] = .ok P.restrC ∧
    PInv S0 T0 (a.srcE ++ isoS.map fun a => (a, a)) (a.tgtE ++ isoT.map fun a => (a, a)) fx (a.blobs pin)
      { S := P.S, T := P.T, fixedC := P.fixedC, pins := P.pins }

theorem parse_spec {pin : α → Nat → α} {a : Args α} {P : Parsed α} (h : a.parse pin = .ok P)
    (hk : (a.fixed.map Prod.fst).Nodup) : ParsedAs pin a P := by
  obtain ⟨isoS, hS, hSi, hSf⟩ := LGraph.read_spec a.srcE a.srcN
  obtain ⟨isoT, hT, hTi, hTf⟩ := LGraph.read_spec a.tgtE a.tgtN
  unfold Args.parse at h
  dsimp only at h
  split at h
  · cases h
  rename_i hS0
  split at h
  · cases h
  rename_i hT0
  cases hf : chainmap (LGraph.read a.srcE a.srcN).L (LGraph.read a.tgtE a.tgtN).L a.fixed [] with
  | error e => rw [hf] at h; cases h
  | ok fx =>
    rw [hf] at h
    dsimp only at h
    cases hi : chainmap (LGraph.read a.srcE a.srcN).L (LGraph.read a.tgtE a.tgtN).L a.initial [] with
    | error e => rw [hi] at h; cases h
    | ok ini =>
      rw [hi] at h
      dsimp only at h
      cases hre : chainmap (LGraph.read a.srcE a.srcN).L (LGraph.read a.tgtE a.tgtN).L a.restr [] with
      | error e => rw [hre] at h; cases h
      | ok re =>
        rw [hre] at h
        dsimp only at h
        cases hp : addPins (a.blobs pin) { S := LGraph.read a.srcE a.srcN, T := LGraph.read a.tgtE a.tgtN, fixedC := fx, pins := 0 } with
        | error e => rw [hp] at h; cases h
        | ok s =>
          rw [hp] at h
          cases h
          have hcm := chainmap_nil hS.wf hf hk
          have hfx : ∀ kv ∈ fx, ∃ i : Nat, kv.1 = i ∧ i < (LGraph.read a.srcE a.srcN).L.label.length := by
            intro kv hkv
            obtain ⟨e, _, he⟩ := (hcm.2.1 kv).mp hkv
            obtain ⟨i, hi, hki⟩ := he.2.1
            exact ⟨i, hki, hS.wf.lt hi⟩
          have := PInv.all (S0 := LGraph.read a.srcE a.srcN) (T0 := LGraph.read a.tgtE a.tgtN) hfx (a.blobs pin) [] _ _
            (⟨by simpa [realBlobs] using hS, by simpa [realBlobs] using hT, .refl _, .refl _, by simp [realBlobs], by simp [realBlobs], hcm.1,
              by simp [realBlobs], by simp [realBlobs], by simp [realBlobs], by simp [realBlobs]⟩ :
              PInv (LGraph.read a.srcE a.srcN) (LGraph.read a.tgtE a.tgtN) _ _ fx [] _) hp
          exact ⟨_, _, isoS, isoT, fx, ⟨hS, hSi, hSf⟩, ⟨hT, hTi, hTf⟩, hS0, hT0, hf, hi, hre, by simpa using this⟩

end Py
end MM
