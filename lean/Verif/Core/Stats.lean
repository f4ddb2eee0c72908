import Verif.Core.EmbInv
import Verif.Core.Tape

/-! What `statistics` reports. -/

namespace MM

variable {P : Prob} {R : Nat → Nat → Prop} {E : Emb}

theorem cnt_eq_countP (p : Nat → Bool) : ∀ n, cnt p n = (List.range n).countP p := by
  intro n
  induction n with
  | zero => rfl
  | succ n ih =>
    rw [List.range_succ, List.countP_append, ← ih]
    show cnt p n + (if p n then 1 else 0) = _
    cases h : p n <;> simp [h]

theorem cnt_eq_rev (p : Nat → Bool) (n : Nat) : cnt p n = (List.range n).reverse.countP p := by
  rw [cnt_eq_countP]
  exact (List.reverse_perm _).symm.countP_eq p

/-- `l` is the histogram of `f` over `0..n-1`, from value `lo` up to the largest value. -/
structure Hist (n lo : Nat) (f : Nat → Nat) (l : List Nat) : Prop where
  le : ∀ q, q < n → f q < lo + l.length
  entry : ∀ k c, l[k]? = some c → c = cnt (fun q => decide (f q = lo + k)) n

/-- The fill of a qubit: the number of chains containing it. -/
def Emb.fill (P : Prob) (E : Emb) (q : Nat) : Nat := cnt (fun v => (E.chains v).has q) P.N

/-- What `statistics` reports. -/
structure StatsOK (P : Prob) (E : Emb) (r : Bool × List Nat) : Prop where
  flag : r.1 = true ↔ ∀ q, q < P.nq → E.fill P q ≤ 1
  over : r.1 = false → Hist P.nq 2 (E.fill P) r.2 ∧ r.2 ≠ [] ∧
    ∃ q, q < P.nq ∧ E.fill P q = r.2.length + 1
  lens : r.1 = true → Hist P.nv 0 (E.chainsize P) r.2 ∧ r.2 ≠ [] ∧
    (0 < P.nv → ∃ v, v < P.nv ∧ E.chainsize P v + 1 = r.2.length) ∧ (P.nv = 0 → r.2.length = 1)

theorem overfillStats_spec (h : E.Exact P) :
    Ok (Emb.overfillStats P E) (fun r =>
      (r = none ∧ ∀ q, q < P.nq → E.fill P q ≤ 1) ∨
      (∃ l, r = some l ∧ Hist P.nq 2 (E.fill P) l ∧ l ≠ [] ∧
        ∃ q, q < P.nq ∧ E.fill P q = l.length + 1)) := by
  have hw : ∀ q, E.w q = (E.fill P q : Int) := h
  unfold Emb.overfillStats
  refine Ok.bind (Ok.foldlM (fun done (r : Int × (Nat → Nat)) =>
    (∀ q ∈ done, (E.fill P q : Int) ≤ r.1) ∧
    (r.1 = 0 ∨ ∃ q ∈ done, (E.fill P q : Int) = r.1) ∧
    (∀ k, r.2 k = done.countP (fun q => decide (E.fill P q = 2 + k)))) ⟨by simp, by simp, by simp⟩ ?_) ?_
  · rintro done q ⟨W, hh⟩ hq _ ⟨i1, i2, i3⟩
    dsimp only at *
    have hle : E.fill P q ≤ P.N := cnt_le
    have c1 : ∀ x ∈ done ++ [q], (E.fill P x : Int) ≤ max W (E.w q) := by
      intro x hx
      rcases List.mem_append.1 hx with h | h
      · exact le_trans (i1 x h) (le_max_left _ _)
      · rw [List.mem_singleton.1 h, ← hw]; exact le_max_right _ _
    have c2 : max W (E.w q) = 0 ∨ ∃ x ∈ done ++ [q], (E.fill P x : Int) = max W (E.w q) := by
      rcases le_total W (E.w q) with h | h
      · right; exact ⟨q, by simp, by rw [max_eq_right h, hw]⟩
      · rw [max_eq_left h]
        rcases i2 with h2 | ⟨x, hx, h2⟩
        · exact Or.inl h2
        · exact Or.inr ⟨x, by simp [hx], h2⟩
    split
    · next h1 =>
      rw [hw] at h1 
      rw [if_pos (by rw [hw]; omega)]
      refine Ok.pure ⟨c1, c2, ?_⟩
      intro k
      rw [List.countP_append]
      dsimp only
      by_cases hk : k = (E.w q - 2).toNat
      · subst hk
        rw [upd_same, i3]
        have : E.fill P q = 2 + (E.w q - 2).toNat := by rw [hw]; omega
        simp [← this]
      · rw [upd_ne _ _ hk, i3]
        have : ¬ E.fill P q = 2 + k := by rw [hw] at hk; omega
        simp [this]
    · next h1 =>
      rw [hw] at h1
      refine Ok.pure ⟨c1, c2, ?_⟩
      intro k
      rw [List.countP_append]
      dsimp only
      rw [i3]
      have : ¬ E.fill P q = 2 + k := by omega
      simp [this]
  · rintro ⟨W, hh⟩ ⟨i1, i2, i3⟩
    dsimp only at *
    refine Ok.pure ?_
    by_cases hW : 1 < W
    · rw [if_pos hW]
      right
      refine ⟨_, rfl, ⟨?_, ?_⟩, ?_, ?_⟩
      · intro q hq
        have := i1 q (by simp [hq])
        simp; omega
      · intro k c hk
        rw [List.getElem?_map] at hk
        by_cases hkl : k < (W-1).toNat
        · rw [List.getElem?_range hkl] at hk
          simp only [Option.map_some, Option.some.injEq] at hk
          rw [← hk, i3, cnt_eq_rev]
        · rw [List.getElem?_eq_none (by simpa using hkl)] at hk
          simp at hk
      · intro hc
        have := congrArg List.length hc
        simp at this
        omega
      · rcases i2 with h2 | ⟨q, hq, h2⟩
        · omega
        · refine ⟨q, by simpa using hq, ?_⟩
          simp; omega
    · rw [if_neg hW]
      left
      refine ⟨rfl, ?_⟩
      intro q hq
      have := i1 q (by simp [hq])
      omega

theorem lengthStats_spec :
    Ok (Emb.lengthStats P E) (fun l => Hist P.nv 0 (E.chainsize P) l ∧ l ≠ [] ∧
      (0 < P.nv → ∃ v, v < P.nv ∧ E.chainsize P v + 1 = l.length) ∧ (P.nv = 0 → l.length = 1)) := by
  unfold Emb.lengthStats
  refine Ok.bind (Ok.foldlM (fun done (r : Nat × (Nat → Nat)) =>
    (∀ v ∈ done, E.chainsize P v ≤ r.1) ∧
    (done = [] ∧ r.1 = 0 ∨ ∃ v ∈ done, E.chainsize P v = r.1) ∧
    (∀ k, r.2 k = done.countP (fun v => decide (E.chainsize P v = k)))) ⟨by simp, by simp, by simp⟩ ?_) ?_
  · rintro done v ⟨W, hh⟩ hv _ ⟨i1, i2, i3⟩
    dsimp only at *
    have hle : E.chainsize P v ≤ P.Q := cnt_le
    rw [if_pos (by omega)]
    refine Ok.pure ⟨?_, ?_, ?_⟩
    · intro x hx
      dsimp only
      rcases List.mem_append.1 hx with h | h
      · have := i1 x h; omega
      · rw [List.mem_singleton.1 h]; omega
    · right
      dsimp only
      rcases le_total W (E.chainsize P v) with h | h
      · exact ⟨v, by simp, by omega⟩
      · rcases i2 with ⟨h1, h2⟩ | ⟨x, hx, h2⟩
        · exact ⟨v, by simp, by omega⟩
        · exact ⟨x, by simp [hx], by omega⟩
    · intro k
      rw [List.countP_append]
      dsimp only
      by_cases hk : k = E.chainsize P v
      · subst hk; rw [upd_same, i3]; simp
      · rw [upd_ne _ _ hk, i3]
        have : ¬ E.chainsize P v = k := fun h => hk h.symm
        simp [this]
  · rintro ⟨W, hh⟩ ⟨i1, i2, i3⟩
    dsimp only at *
    refine Ok.pure ⟨⟨?_, ?_⟩, by simp, ?_, ?_⟩
    · intro v hv
      have := i1 v (by simp [hv])
      simp; omega
    · intro k c hk
      rw [List.getElem?_map] at hk
      by_cases hkl : k < W + 1
      · rw [List.getElem?_range hkl] at hk
        simp only [Option.map_some, Option.some.injEq] at hk
        rw [← hk, i3, cnt_eq_rev]; simp
      · rw [List.getElem?_eq_none (by simpa using hkl)] at hk
        simp at hk
    · intro hnv
      rcases i2 with ⟨h1, _⟩ | ⟨v, hv, h2⟩
      · have := congrArg List.length h1
        simp at this; omega
      · exact ⟨v, by simpa using hv, by simp [h2]⟩
    · intro h0
      rcases i2 with ⟨h1, h2⟩ | ⟨v, hv, h2⟩
      · simp [h2]
      · simp [h0] at hv

theorem statistics_spec (h : E.Exact P) : Ok (Emb.statistics P E) (StatsOK P E) := by
  unfold Emb.statistics
  refine Ok.bind (overfillStats_spec h) ?_
  rintro r (⟨rfl, h1⟩ | ⟨l, rfl, h1, h2, q, hq, h3⟩)
  · refine Ok.bind lengthStats_spec ?_
    intro l hl
    exact Ok.pure ⟨by simpa using h1, by simp, fun _ => hl⟩
  · refine Ok.pure ⟨?_, fun _ => ⟨h1, h2, q, hq, h3⟩, by simp⟩
    simp only [Bool.false_eq_true, false_iff]
    intro hc
    have := hc q hq
    have : l.length ≠ 0 := by simpa using h2
    omega

end MM
