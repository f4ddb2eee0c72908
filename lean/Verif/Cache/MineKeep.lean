import Verif.Cache.MineInv

/-! What is offered to mining is kept if the quality function says so. -/

namespace MM
namespace Cache

/-- The cache that the function finds for a seed: the one on disk, or else the one that it computes for the first of its seeds with the same identifier. -/
def Mining.source (M : Mining) (files : Files) (s : Nat) : Cliques :=
  match dget files (M.ident s) with
  | some c => c
  | none =>
    match M.seeds.find? (fun t => M.ident t = M.ident s) with
    | some t => M.computed t
    | none => M.computed s

/-- A property `H` of caches that merging keeps, as long as the caches have the property `P`. -/
structure Keeping (M : Mining) (P H : Cliques → Prop) : Prop where
  merge : ∀ quality, quality = M.quality ∨ quality = some M.heuristicQuality → ∀ c0 c1 c, P c0 → P c1 → mergeBy quality c0 c1 = .ok c → P c ∧ (H c0 ∨ H c1 → H c)
  last : ∀ c c', P c → H c → insertBy none [] c = .ok c' → H c'
  blank : P blank
  insert : ∀ emb, P (insertCache emb)

variable {M : Mining} {P H : Cliques → Prop}

theorem Keeping.inserted (k : Keeping M P H) {quality : Option Better} (hq : quality = M.quality ∨ quality = some M.heuristicQuality) {emb : Emb} {c c' : Cliques} (hc : P c) (h : insertBy quality emb c = .ok c') :
    P c' ∧ (H (insertCache emb) ∨ H c → H c') := k.merge quality hq _ _ _ (k.insert emb) hc (lift_ok.mp h)

theorem Keeping.polished (k : Keeping M P H) {ci c c' : Cliques} {n : Nat} (hc : P c) (h : M.polished ci c n = .ok c') : P c' ∧ (H c → H c') := by
  simp only [Mining.polished, bind, Except.bind] at h
  split at h
  · cases h
  · split at h
    · cases h
    · obtain ⟨a, b⟩ := k.inserted (.inl rfl) hc h
      exact ⟨a, fun h => b (.inr h)⟩

theorem Keeping.polynomial (k : Keeping M P H) {st st' : Files × Cliques} {s : Nat} (hc : P st.2) (hi : P (fetch st.1 (M.ident s) (M.computed s)).2) (h : M.polynomial st s = .ok st') :
    st'.1 = (fetch st.1 (M.ident s) (M.computed s)).1 ∧ P st'.2 ∧ (H (fetch st.1 (M.ident s) (M.computed s)).2 ∨ H st.2 → H st'.2) := by
  simp only [Mining.polynomial] at h
  generalize fetch st.1 (M.ident s) (M.computed s) = fc at hi h
  obtain ⟨files, ci⟩ := fc
  simp only [bind, Except.bind] at h
  split at h
  · cases h
  · rename_i c hm
    obtain ⟨a, b⟩ := k.merge _ (.inl rfl) _ _ _ hi hc (lift_ok.mp hm)
    split at h
    · split at h
      · cases h
      · split at h
        · cases h
        · rename_i c2 hf
          cases h
          obtain ⟨d1, d2⟩ := foldlM_inv (I := fun c => P c ∧ ((H ci ∨ H st.2) → H c)) (fun n _ c c' hc he => by
            obtain ⟨e1, e2⟩ := k.polished hc.1 he
            exact ⟨e1, fun h => e2 (hc.2 h)⟩) hf ⟨a, b⟩
          exact ⟨rfl, d1, d2⟩
    · cases h; exact ⟨rfl, a, b⟩

/-- The files after the runs for the seeds `done`. -/
def FilesAt (M : Mining) (files0 : Files) (done : List Nat) (files : Files) : Prop :=
  ∀ id, dget files id = match dget files0 id with
    | some c => some c
    | none => (done.find? fun t => M.ident t = id).map M.computed

theorem FilesAt.fetch {files0 files : Files} {done rest : List Nat} {s : Nat} (h : FilesAt M files0 done files) (hs : M.seeds = done ++ s :: rest) :
    (fetch files (M.ident s) (M.computed s)).2 = M.source files0 s ∧ FilesAt M files0 (done ++ [s]) (fetch files (M.ident s) (M.computed s)).1 := by
  have hd := h (M.ident s)
  simp only [Mining.source, Cache.fetch]
  cases e0 : dget files0 (M.ident s) with
  | some c =>
    rw [e0] at hd
    simp only [hd]
    refine ⟨trivial, fun id => ?_⟩
    rw [h id]
    cases e1 : dget files0 id with
    | some c => rfl
    | none =>
      simp only [List.find?_append]
      cases done.find? (fun t => decide (M.ident t = id)) with
      | some t => rfl
      | none =>
        rw [List.find?_cons_of_neg (by
          simp only [decide_eq_true_eq]
          rintro rfl
          rw [e0] at e1; cases e1)]
        rfl
  | none =>
    rw [e0] at hd
    simp only at hd
    rw [hs, List.find?_append]
    cases e1 : done.find? (fun t => decide (M.ident t = M.ident s)) with
    | some t =>
      rw [e1] at hd
      simp only [Option.map_some] at hd
      simp only [hd, Option.some_or]
      refine ⟨trivial, fun id => ?_⟩
      rw [h id]
      cases e2 : dget files0 id with
      | some c => rfl
      | none =>
        simp only [List.find?_append]
        by_cases he : M.ident s = id
        · subst he; rw [e1]; rfl
        · rw [List.find?_cons_of_neg (by simpa using he)]
          cases done.find? (fun t => decide (M.ident t = id)) <;> rfl
    | none =>
      rw [e1] at hd
      simp only [Option.map_none] at hd
      rw [List.find?_cons_of_pos (by simp)]
      simp only [hd, Option.none_or]
      refine ⟨trivial, fun id => ?_⟩
      rw [dget_dset, List.find?_append]
      by_cases he : M.ident s = id
      · subst he
        rw [if_pos rfl, e0, e1, List.find?_cons_of_pos (by simp)]
        rfl
      · rw [if_neg he, h id, List.find?_cons_of_neg (by simpa using he)]
        cases dget files0 id with
        | some c => rfl
        | none => cases done.find? (fun t => decide (M.ident t = id)) <;> rfl

theorem Keeping.seeds (k : Keeping M P H) {files0 : Files} (hP : ∀ s ∈ M.seeds, P (M.source files0 s)) : ∀ (rest done : List Nat) (st st' : Files × Cliques), M.seeds = done ++ rest → FilesAt M files0 done st.1 → P st.2 →
    rest.foldlM M.polynomial st = .ok st' → FilesAt M files0 M.seeds st'.1 ∧ P st'.2 ∧ (H st.2 → H st'.2) ∧ ∀ s ∈ rest, H (M.source files0 s) → H st'.2 := by
  intro rest
  induction rest with
  | nil =>
    intro done st st' hs hf hc h
    cases h
    rw [List.append_nil] at hs
    exact ⟨hs ▸ hf, hc, fun h => h, by simp⟩
  | cons s rest ih =>
    intro done st st' hs hf hc h
    rw [List.foldlM_cons] at h
    cases e : M.polynomial st s with
    | error x => rw [e] at h; cases h
    | ok s1 =>
      rw [e] at h
      obtain ⟨f1, f2⟩ := hf.fetch hs
      obtain ⟨a1, a2, a3⟩ := k.polynomial hc (by rw [f1]; exact hP s (by rw [hs]; simp)) e
      rw [f1] at a3
      obtain ⟨b1, b2, b3, b4⟩ := ih (done ++ [s]) s1 st' (by rw [hs]; simp) (by rw [a1]; exact f2) a2 h
      refine ⟨b1, b2, fun h => b3 (a3 (.inr h)), fun t ht => ?_⟩
      rcases List.mem_cons.mp ht with rfl | ht
      · exact fun h => b3 (a3 (.inl h))
      · exact b4 t ht

theorem Keeping.take (k : Keeping M P H) {c c' : Cliques} {emb : Emb} (hc : P c) (h : M.take c emb = .ok c') : P c' ∧ (H c → H c') ∧ (emb ≠ [] → H (insertCache emb) → H c') := by
  simp only [Mining.take] at h
  split at h
  · cases h; exact ⟨hc, fun h => h, fun hne => absurd (by assumption) hne⟩
  · simp only [bind, Except.bind] at h
    split at h
    · cases h
    · rename_i c1 h1
      obtain ⟨a1, a2⟩ := k.inserted (.inr rfl) hc h1
      split at h
      · split at h
        · cases h
        · obtain ⟨b1, b2⟩ := k.inserted (.inr rfl) a1 h
          exact ⟨b1, fun h => b2 (.inr (a2 (.inr h))), fun _ h => b2 (.inr (a2 (.inl h)))⟩
      · cases h
        exact ⟨a1, fun h => a2 (.inr h), fun _ h => a2 (.inl h)⟩

theorem Keeping.heuristics (k : Keeping M P H) {c c' : Cliques} {size : Nat} (hc : P c) (h : M.heuristics c size = .ok c') :
    P c' ∧ (H c → H c') ∧ ∀ embs, M.heuristic size = some embs → ∀ emb ∈ embs, emb ≠ [] → H (insertCache emb) → H c' := by
  simp only [Mining.heuristics] at h
  split at h
  · cases h
  · rename_i embs he
    have hI := foldlM_inv (I := fun c' => P c' ∧ (H c → H c')) (fun emb _ c1 c2 hc h => by
      obtain ⟨a, b, _⟩ := k.take hc.1 h
      exact ⟨a, fun h => b (hc.2 h)⟩) h ⟨hc, fun h => h⟩
    refine ⟨hI.1, hI.2, fun embs' he' emb hm hne hH => ?_⟩
    rw [he] at he'; cases he'
    exact foldlM_reach (f := M.take) (I := P) (J := H) hm (fun emb _ c1 c2 hc h => (k.take hc h).1) (fun c1 c2 hc h => (k.take hc h).2.2 hne hH) (fun emb _ c1 c2 hc hj h => (k.take hc h).2.1 hj) h hc

/-- What mining keeps. -/
theorem Keeping.mine (k : Keeping M P H) {files0 files : Files} {c : Cliques} (hP : ∀ s ∈ M.seeds, P (M.source files0 s)) (h : mine M files0 = .ok (files, c)) :
    (∀ s ∈ M.seeds, H (M.source files0 s) → H c) ∧
      ∀ b, M.heuristicBound = .ok b → ∀ size : Nat, 3 ≤ size → (size : Int) ≤ b → ∀ embs, M.heuristic size = some embs → ∀ emb ∈ embs, emb ≠ [] → H (insertCache emb) → H c := by
  simp only [Cache.mine, bind, Except.bind] at h
  split at h
  · cases h
  · rename_i st hst
    obtain ⟨files1, c1⟩ := st
    obtain ⟨_, a2, _, a4⟩ := k.seeds hP M.seeds [] (files0, Cache.blank) (files1, c1) rfl (fun id => by simp only [List.find?_nil, Option.map_none]; split <;> rename_i e <;> rw [e]) k.blank hst
    split at h
    · cases h
    · rename_i b hb
      split at h
      · cases h
      · rename_i c2 h2
        split at h
        · cases h
        · rename_i c3 h3
          cases h
          have hI := foldlM_inv (I := fun c' => P c' ∧ (H c1 → H c')) (fun n _ c1 c2 hc h => by
            obtain ⟨a, b, _⟩ := k.heuristics hc.1 h
            exact ⟨a, fun h => b (hc.2 h)⟩) h2 ⟨a2, fun h => h⟩
          refine ⟨fun s hs hH => k.last _ _ hI.1 (hI.2 (a4 s hs hH)) h3, fun b' hb' size h3' hle embs he emb hm hne hH => ?_⟩
          rw [hb] at hb'; cases hb'
          refine k.last _ _ hI.1 ?_ h3
          refine foldlM_reach (f := M.heuristics) (l := List.range' 3 (b + 1 - 3).toNat) (I := P) (J := H) (a := size) (List.mem_range'_1.mpr ⟨h3', by omega⟩) (fun n _ c1 c2 hc h => (k.heuristics hc h).1)
            (fun c1 c2 hc h => (k.heuristics hc h).2.2 embs he emb hm hne hH) (fun n _ c1 c2 hc hj h => (k.heuristics hc h).2.1 hj) h2 a2

end Cache
end MM
