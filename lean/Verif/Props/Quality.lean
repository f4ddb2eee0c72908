import Verif.Py.Quality

/-! C26: what `quality_key` ranks first. -/

namespace MM

open Py Spec.Py

variable {α κ κ' : Type} [DecidableEq α] [DecidableEq κ] [DecidableEq κ']

omit [DecidableEq α] in
/-- The length part of the key, for two embeddings with the same overlap part or none. -/
theorem C26_lengths (e : List (κ × List α)) (f : List (κ' × List α)) :
    let L := histogramKey (e.map fun kc => kc.2.length)
    let M := histogramKey (f.map fun kc => kc.2.length)
    (listLt L M = true ↔ Lower (chainsOfLength e) (chainsOfLength f)) ∧
    (L = M ↔ ∀ s, 0 < s → chainsOfLength e s = chainsOfLength f s) := by
  obtain ⟨d, h1, h2⟩ := histogram_spec (e.map fun kc => kc.2.length)
  obtain ⟨d', h1', h2'⟩ := histogram_spec (f.map fun kc => kc.2.length)
  dsimp only
  rw [h2, h2']
  exact ⟨h1.lt_iff h1', h1.eq_iff h1'⟩

/-- The overlap part of the key. -/
theorem C26_overlaps (e : List (κ × List α)) (f : List (κ' × List α)) :
    let O := histogramKey ((countOverlaps (e.map Prod.snd)).map Prod.snd)
    let O' := histogramKey ((countOverlaps (f.map Prod.snd)).map Prod.snd)
    (listLt O O' = true ↔ Lower (overused e) (overused f)) ∧
    (O = O' ↔ ∀ s, 0 < s → overused e s = overused f s) ∧
    (O = [] ↔ NoOverlap e) := by
  obtain ⟨d, h1, h2⟩ := overlap_hist e
  obtain ⟨d', h1', h2'⟩ := overlap_hist f
  dsimp only
  rw [h2, h2']
  refine ⟨h1.lt_iff h1', h1.eq_iff h1', ?_⟩
  have hnil : (d.flatMap (fun t => [t.1, t.2]) = [] ↔ ∀ s, 0 < s → overused e s = 0) := by
    have h0 : Hist [] (fun _ => 0) := ⟨.nil, by intro s c; constructor <;> simp; omega⟩
    have := h1.eq_iff h0
    simpa using this
  rw [hnil]
  unfold overused
  constructor
  · intro h q
    by_contra hq
    have hu : 2 ≤ uses e q := by omega
    have := h (uses e q - 1) (by omega)
    rw [List.countP_eq_zero] at this
    refine this q ?_ (by simp; omega)
    rw [List.mem_dedup, ← List.count_pos_iff]
    unfold uses at hu
    omega
  · intro h s hs
    rw [List.countP_eq_zero]
    intro q _ hq
    have := h q
    simp at hq
    omega

/-- **C26.** `(2,)` only for the empty dict, and `1` as first entry exactly if some qubit is used twice. -/
theorem C26_state (e : List (κ × List α)) :
    (qualityKey e false = .nothing ↔ e = []) ∧
    (e ≠ [] → ¬ NoOverlap e → ∃ O L, qualityKey e false = .key 1 O L ∧ O ≠ []) ∧
    (e ≠ [] → NoOverlap e → ∃ L, qualityKey e false = .key 0 [] L ∧ qualityKey e true = qualityKey e false) := by
  have hO := (C26_overlaps e e).2.2
  unfold qualityKey
  by_cases he : e = []
  · simp [he]
  · dsimp only at hO ⊢
    by_cases hn : NoOverlap e
    · have h0 := hO.mpr hn
      simp [he, hn, h0]
    · have h0 : ¬ _ := fun h => hn (hO.mp h)
      simp [he, hn, h0]

/-- **C26.** Smaller key is better. Two embeddings that are not empty are compared by their overlaps first: the one with
fewer of the most overused qubits (at the largest excess where they differ) is better. If both overuse equally many
qubits for every excess, the one with fewer of the longest chains (at the largest length where they differ) is better. -/
theorem C26_order (e : List (κ × List α)) (f : List (κ' × List α)) (he : e ≠ []) (hf : f ≠ []) :
    ((qualityKey e false).lt (qualityKey f false) = true ↔
      Lower (overused e) (overused f) ∨
      (∀ s, 0 < s → overused e s = overused f s) ∧ Lower (chainsOfLength e) (chainsOfLength f)) ∧
    (qualityKey e false = qualityKey f false ↔
      (∀ s, 0 < s → overused e s = overused f s) ∧ ∀ s, 0 < s → chainsOfLength e s = chainsOfLength f s) := by
  obtain ⟨o1, o2, o3⟩ := C26_overlaps e f
  obtain ⟨_, _, p3⟩ := C26_overlaps f f
  obtain ⟨l1, l2⟩ := C26_lengths e f
  unfold qualityKey
  rw [if_neg he, if_neg hf]
  dsimp only at *
  simp only [Bool.false_eq_true, if_false]
  generalize histogramKey ((countOverlaps (e.map Prod.snd)).map Prod.snd) = O at *
  generalize histogramKey ((countOverlaps (f.map Prod.snd)).map Prod.snd) = O' at *
  generalize histogramKey (e.map fun kc => kc.2.length) = L at *
  generalize histogramKey (f.map fun kc => kc.2.length) = L' at *
  have lt_irrefl : ∀ l, listLt l l = false := by
    intro l
    induction l with
    | nil => rfl
    | cons a l ih => simp [listLt, ih]
  rw [← o1, ← o2, ← l1, ← l2]
  by_cases h : O = []
  · subst h
    cases O' with
    | nil => simp [Key.lt, lt_irrefl]
    | cons a O' => simp [Key.lt, listLt]
  · cases O with
    | nil => exact absurd rfl h
    | cons b O =>
      cases O' with
      | nil => simp [Key.lt, listLt]
      | cons a O' =>
        simp only [ne_eq, reduceCtorEq, not_false_eq_true, if_true, Key.lt]
        split
        · rename_i hh
          rw [hh]
          simp [lt_irrefl]
        · rename_i hh
          simp [hh]

/-- **C26.** Any embedding is better than the empty dict, and any without overlap is better than any with. -/
theorem C26_ranks (e : List (κ × List α)) (f : List (κ' × List α)) (he : e ≠ []) :
    (qualityKey e false).lt (qualityKey ([] : List (κ' × List α)) false) = true ∧
    (f ≠ [] → NoOverlap e → ¬ NoOverlap f → (qualityKey e false).lt (qualityKey f false) = true) := by
  constructor
  · obtain ⟨_, h2, h3⟩ := C26_state e
    by_cases hn : NoOverlap e
    · obtain ⟨L, h, _⟩ := h3 he hn
      rw [h]; rfl
    · obtain ⟨O, L, h, _⟩ := h2 he hn
      rw [h]; rfl
  · intro hf hn hn'
    obtain ⟨L, h, _⟩ := (C26_state e).2.2 he hn
    obtain ⟨O, L', h', _⟩ := (C26_state f).2.1 hf hn'
    rw [h, h']; rfl

/-- With `embedded` only the lengths count. -/
theorem C26_embedded (e : List (κ × List α)) (f : List (κ' × List α)) (he : e ≠ []) (hf : f ≠ []) :
    (qualityKey e true).lt (qualityKey f true) = true ↔ Lower (chainsOfLength e) (chainsOfLength f) := by
  rw [← (C26_lengths e f).1]
  unfold qualityKey
  rw [if_neg he, if_neg hf]
  simp [Key.lt]

/-- An observation: the chains all being empty, as after a failed start with `return_overlap`, ranks before every other
embedding. -/
theorem C26_empty_chains_rank_first (e f : List (κ × List α)) (he : e ≠ []) (hf : f ≠ [])
    (h : ∀ kc ∈ e, kc.2 = []) (hf' : ∃ kc ∈ f, kc.2 ≠ []) : (qualityKey e false).lt (qualityKey f false) = true := by
  have hflat : e.flatMap Prod.snd = [] := by
    rw [List.flatMap_eq_nil_iff]; exact h
  have hz : ∀ s, overused e s = 0 := by
    intro s; unfold overused; rw [hflat]; simp
  have hl : ∀ s, 0 < s → chainsOfLength e s = 0 := by
    intro s hs
    unfold chainsOfLength
    rw [List.count_eq_zero]
    intro hm
    obtain ⟨kc, hkc, hs'⟩ := List.mem_map.mp hm
    rw [h kc hkc] at hs'
    simp at hs'
    omega
  rw [(C26_order e f he hf).1]
  -- the largest value a finite count does not vanish at
  have top : ∀ (n : Nat → Nat) (b : Nat), (∀ s, b < s → n s = 0) → (∃ s, 0 < s ∧ n s ≠ 0) → ∃ s, 0 < s ∧ n s ≠ 0 ∧ ∀ s', s < s' → n s' = 0 := by
    intro n b
    induction b with
    | zero =>
      rintro h0 ⟨s, hs, hn⟩
      exact absurd (h0 s hs) hn
    | succ b ih =>
      intro h0 hex
      by_cases hb : n (b + 1) = 0
      · refine ih ?_ hex
        intro s hs
        by_cases he : s = b + 1
        · rw [he]; exact hb
        · exact h0 s (by omega)
      · exact ⟨b + 1, by omega, hb, h0⟩
  by_cases hn : ∀ s, 0 < s → overused f s = 0
  · right
    refine ⟨fun s hs => by rw [hz, hn s hs], ?_⟩
    obtain ⟨kc, hkc, hne⟩ := hf'
    obtain ⟨s, hs, hsn, hup⟩ := top (chainsOfLength f) ((f.map fun kc => kc.2.length).sum) (by
      intro s hs
      unfold chainsOfLength
      rw [List.count_eq_zero]
      intro hm
      have : ∀ (l : List Nat) (x : Nat), x ∈ l → x ≤ l.sum := by
        intro l
        induction l with
        | nil => intro x hx; cases hx
        | cons y l ih =>
          intro x hx
          rw [List.sum_cons]
          rcases List.mem_cons.mp hx with rfl | hx
          · omega
          · have := ih x hx; omega
      have := this _ s hm
      omega) ⟨kc.2.length, List.length_pos_iff.mpr hne, by
        unfold chainsOfLength
        rw [← Nat.pos_iff_ne_zero, List.count_pos_iff]
        exact List.mem_map.mpr ⟨kc, hkc, rfl⟩⟩
    exact ⟨s, hs, by rw [hl s hs]; omega, fun s' hs' => by rw [hl s' (by omega), hup s' hs']⟩
  · left
    push Not at hn
    obtain ⟨s, hs, hsn, hup⟩ := top (overused f) (f.flatMap Prod.snd).length (by
      intro s hs
      unfold overused
      rw [List.countP_eq_zero]
      intro q _ hq
      have : uses f q ≤ (f.flatMap Prod.snd).length := List.count_le_length
      simp at hq
      omega) hn
    exact ⟨s, hs, by rw [hz]; omega, fun s' hs' => by rw [hz, hup s' hs']⟩

/-! ### Examples -/

example : qualityKey [(0, [1, 2, 3]), (1, [4]), (2, [5, 6, 7]), (3, [8])] false = .key 0 [] [3, 2, 1, 2] := by decide +kernel

example : qualityKey [(0, [1, 2]), (1, [2, 3]), (2, [2, 3, 4])] false = .key 1 [2, 1, 1, 1] [3, 1, 2, 2] := by decide +kernel

/-- Two chains of length 2 beat one of length 3. -/
example : Lower (chainsOfLength [(0, [1, 2]), (1, [3, 4])]) (chainsOfLength [(0, [1, 2, 3]), (1, [4])]) :=
  (C26_embedded [(0, [1, 2]), (1, [3, 4])] [(0, [1, 2, 3]), (1, [4])] (by decide) (by decide)).mp (by decide +kernel)

example : (qualityKey [(0, [1, 2, 3])] false).lt (qualityKey [(0, [1]), (1, [1])] false) = true :=
  (C26_ranks [(0, [1, 2, 3])] [(0, [1]), (1, [1])] (by decide)).2 (by decide)
    (fun q => by
      show List.count q [1, 2, 3] ≤ 1
      exact List.nodup_iff_count_le_one.mp (by decide) q)
    (fun h => absurd (h 1) (by decide))

end MM
