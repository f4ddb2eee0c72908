import Verif.Eden.Native

/-! The loops of `largestNativeClique` and `tightestNativeClique`. -/

namespace MM
namespace Eden

open Spec.Eden (Qb Ell Joined Works HLine VLine hLines vLines LinesWhole CellsWhole Path Touch Clique Native)

variable {P : Proc}

/-- Random numbers are in their bounds and shuffling permutes. -/
structure Luck.Fair (K : Luck) : Prop where
  rolls : ∀ w i n, 1 ≤ n → 1 ≤ K.rnd w i n ∧ K.rnd w i n ≤ n
  mixes : ∀ w e b l, (K.mix w e b l).Perm l

/-- What is known about the result for one width. -/
structure Result (P : Proc) (width : Nat) (r : Option Nat × List (List Qb)) : Prop where
  clique : CellsWhole P.edges → Clique P.edges r.2
  len : ∀ c ∈ r.2, c.length = width + 1
  score : ∀ m, r.1 = some m → m ≤ r.2.length ∧ (LinesWhole P.edges → m = r.2.length)
  absent : r.1 = none ↔ ∀ e, InGrid P e → e.len ≠ width + 1
  empty : r.1 = none → r.2 = []
  best : LinesWhole P.edges → ∀ es, Native P.M P.N (width + 1) es → Spec.Eden.size P.edges P.L es ≤ r.2.length

theorem sum_blk {n : Nat} {es : List Ell} (hn : Native P.M P.N n es) :
    (es.map P.blk).sum ≤ Spec.Eden.size P.edges P.L es ∧ (LinesWhole P.edges → (es.map P.blk).sum = Spec.Eden.size P.edges P.L es) := by
  have hg : ∀ e ∈ es, InGrid P e := fun e he => ⟨hn.cols e he, hn.rows e he⟩
  clear hn
  unfold Spec.Eden.size
  induction es with
  | nil => simp
  | cons e es ih =>
    obtain ⟨i1, i2⟩ := ih fun f hf => hg f (List.mem_cons_of_mem _ hf)
    obtain ⟨-, b1, b2⟩ := blk_spec (hg e List.mem_cons_self)
    simp only [List.map_cons, List.sum_cons]
    refine ⟨Nat.add_le_add b1 i1, fun hl => ?_⟩
    rw [b2 hl, i2 hl]

theorem native_result {rnd : Nat → Nat → Nat} (hr : ∀ i n, 1 ≤ n → 1 ≤ rnd i n ∧ rnd i n ≤ n) {mix : Ell → Bool → List (List Qb) → List (List Qb)}
    (hm : ∀ e b l, (mix e b l).Perm l) (width : Nat) : ∃ r, P.native rnd mix width = .ok r ∧ Result P width r := by
  obtain ⟨es, score, h1, h2, h3, h4, h5⟩ := native_spec (P := P) (fun i n h => (hr i n h).2) mix width
  refine ⟨_, h1, ⟨fun hc => blocks_clique hm hc h2.next, fun c hc => ?_, fun m h => ?_, ⟨fun h => (h3 h).2, fun h => ?_⟩, fun h => ?_, fun hl es' hn => ?_⟩⟩
  · obtain ⟨e, he, hc⟩ := List.mem_flatMap.mp hc
    have l1 := chain_length (hm e) hc
    have l2 := h2.len e he
    omega
  · dsimp only at h ⊢
    obtain ⟨s1, s2⟩ := sum_blk h2
    rw [blocks_length hm, (h4 m h).1]
    exact ⟨s1, s2⟩
  · dsimp only
    cases score with
    | none => rfl
    | some m =>
      obtain ⟨-, e, he, hl⟩ := h4 m rfl
      exact absurd hl (h e he)
  · rw [(h3 h).1]
    rfl
  · dsimp only
    rw [blocks_length hm, ← (sum_blk h2).2 hl, ← (sum_blk hn).2 hl]
    exact h5 es' hn

/-- Chains of `n` qubits fit. -/
theorem fits_iff {n : Nat} : (∃ e, InGrid P e ∧ e.len = n) ↔ 1 ≤ P.M ∧ 1 ≤ P.N ∧ 2 ≤ n ∧ n ≤ P.M + P.N := by
  constructor
  · rintro ⟨e, hg, hl⟩
    have c1 := hg.cols (min e.x e.x') ⟨by omega, by omega⟩
    have c2 := hg.cols (max e.x e.x') ⟨by omega, by omega⟩
    have r1 := hg.rows (min e.y e.y') ⟨by omega, by omega⟩
    have r2 := hg.rows (max e.y e.y') ⟨by omega, by omega⟩
    unfold Ell.len at hl
    omega
  · rintro ⟨h1, h2, h3, h4⟩
    refine ⟨⟨0, (min (n - 1) P.M : Nat) - 1, 0, (n - min (n - 1) P.M : Nat) - 1⟩, ⟨fun c hc => ?_, fun r hr => ?_⟩, ?_⟩
    · unfold Ell.InCols at hc
      dsimp only at hc
      omega
    · unfold Ell.InRows at hr
      dsimp only at hr
      omega
    · unfold Ell.len
      dsimp only
      omega

theorem Result.none_iff {width : Nat} {r : Option Nat × List (List Qb)} (h : Result P width r) :
    r.1 = none ↔ ¬ (1 ≤ P.M ∧ 1 ≤ P.N ∧ 1 ≤ width ∧ width + 1 ≤ P.M + P.N) := by
  rw [h.absent]
  have := fits_iff (P := P) (n := width + 1)
  push_cast at this
  constructor
  · intro h1 h2
    obtain ⟨e, he, hl⟩ := this.mpr ⟨h2.1, h2.2.1, by omega, h2.2.2.2⟩
    exact h1 e he hl
  · intro h1 e he hl
    have := this.mp ⟨e, he, hl⟩
    exact h1 ⟨this.1, this.2.1, by omega, this.2.2.2⟩

/-- Without chains that fit there is no block. -/
theorem size_zero {n : Nat} (h : n < 2) {es : List Ell} (hn : Native P.M P.N n es) : es = [] := by
  cases es with
  | nil => rfl
  | cons e es =>
    have := (fits_iff (P := P) (n := n)).mp ⟨e, ⟨hn.cols e List.mem_cons_self, hn.rows e List.mem_cons_self⟩, hn.len e List.mem_cons_self⟩
    omega

/-- The state of the loop of `largestNativeClique` after the widths below `k`. -/
structure Largest (P : Proc) (k : Nat) (r : Option Nat × List (List Qb)) : Prop where
  clique : CellsWhole P.edges → Clique P.edges r.2
  score : ∀ m, r.1 = some m → m ≤ r.2.length ∧ (LinesWhole P.edges → m = r.2.length)
  absent : r.1 = none ↔ ¬ (1 ≤ P.M ∧ 1 ≤ P.N ∧ 2 ≤ k)
  empty : r.1 = none → r.2 = []
  len : ∃ n, n ≤ k ∧ (∀ c ∈ r.2, c.length = n) ∧ (LinesWhole P.edges → ∀ n' < n, ∀ es, Native P.M P.N n' es → Spec.Eden.size P.edges P.L es < r.2.length)
  best : LinesWhole P.edges → ∀ n ≤ k, ∀ es, Native P.M P.N n es → Spec.Eden.size P.edges P.L es ≤ r.2.length

theorem native_zero {es : List Ell} (hn : Native P.M P.N 0 es) : Spec.Eden.size P.edges P.L es = 0 := by
  rw [size_zero (by decide) hn]
  rfl

theorem improve_inv {K : Luck} (hK : K.Fair) {k : Nat} {b : Option Nat × List (List Qb)} (hb : Largest P k b) (hk : k + 1 ≤ P.M + P.N ∨ P.M = 0 ∨ P.N = 0) :
    ∃ b', P.improve K b k = .ok b' ∧ Largest P (k + 1) b' := by
  obtain ⟨c, h1, h2⟩ := native_result (P := P) (hK.rolls k) (hK.mixes k) k
  unfold Proc.improve
  simp only [bind, Except.bind, h1]
  have take : (LinesWhole P.edges → ∀ n ≤ k, ∀ es, Native P.M P.N n es → Spec.Eden.size P.edges P.L es ≤ c.2.length) →
      ((∃ s, c.1 = some s) → LinesWhole P.edges → ∀ n ≤ k, ∀ es, Native P.M P.N n es → Spec.Eden.size P.edges P.L es < c.2.length) →
      (c.1 = Option.none → ¬ (1 ≤ P.M ∧ 1 ≤ P.N ∧ 2 ≤ k + 1)) → (c.1 ≠ Option.none → 1 ≤ P.M ∧ 1 ≤ P.N ∧ 2 ≤ k + 1) → Largest P (k + 1) c := by
    intro h3 h3' h4 h5
    refine ⟨h2.clique, h2.score, ⟨h4, fun h => ?_⟩, h2.empty, ?_, fun hl n hn es hes => ?_⟩
    · by_contra hne
      exact h (h5 hne)
    · cases hc : c.1 with
      | none =>
        refine ⟨0, by omega, ?_, fun _ n hn => (by omega)⟩
        rw [h2.empty hc]
        exact fun c hc => (nomatch hc)
      | some s => exact ⟨k + 1, le_refl _, h2.len, fun hl n hn es hes => h3' ⟨s, hc⟩ hl n (by omega) es hes⟩
    · rcases Nat.lt_or_ge k n with h | h
      · rw [show n = k + 1 by omega] at hes
        exact h2.best hl es hes
      · exact h3 hl n h es hes
  cases hb1 : b.1 with
  | none =>
    dsimp only
    have hbn := hb.absent.mp hb1
    have hnil := hb.empty hb1
    have hbest := hb.best
    rw [hnil] at hbest
    refine ⟨c, rfl, ?_⟩
    cases hc : c.1 with
    | none =>
      refine take (fun hl n hn es hes => (hbest hl n hn es hes).trans (Nat.zero_le _)) (fun ⟨s, hs⟩ => by rw [hc] at hs; cases hs) (fun _ h => ?_) (fun h => absurd hc h)
      have := h2.none_iff.mp hc
      omega
    | some s =>
      have h5 : 1 ≤ P.M ∧ 1 ≤ P.N ∧ 2 ≤ k + 1 := by
        by_contra h
        have : c.1 = Option.none := h2.none_iff.mpr (by omega)
        rw [hc] at this
        cases this
      by_cases hpos : c.2.length = 0
      · -- nothing was found so far, and nothing is found
        have hc2 : c.2 = [] := List.eq_nil_of_length_eq_zero hpos
        refine ⟨h2.clique, h2.score, ⟨fun h => ?_, fun h => absurd h5 h⟩, h2.empty, ⟨0, by omega, ?_, fun _ n hn => (by omega)⟩, fun hl n hn es hes => ?_⟩
        · rw [hc] at h; cases h
        · rw [hc2]
          exact fun c hc => (nomatch hc)
        · rcases Nat.lt_or_ge k n with h | h
          · rw [show n = k + 1 by omega] at hes
            exact h2.best hl es hes
          · exact (hbest hl n h es hes).trans (Nat.zero_le _)
      · exact take (fun hl n hn es hes => (hbest hl n hn es hes).trans (Nat.zero_le _))
          (fun _ hl n hn es hes => (hbest hl n hn es hes).trans_lt (by simp only [List.length_nil]; omega)) (fun h => by rw [hc] at h; cases h) (fun _ => h5)
  | some m =>
    have hbs : 1 ≤ P.M ∧ 1 ≤ P.N ∧ 2 ≤ k := by
      by_contra h
      rw [hb.absent.mpr h] at hb1
      cases hb1
    cases hc : c.1 with
    | none =>
      have := h2.none_iff.mp hc
      omega
    | some s =>
      dsimp only
      have hm := hb.score m hb1
      have hs := h2.score s hc
      by_cases hlt : m < s
      · rw [if_pos hlt]
        refine ⟨c, rfl, take (fun hl n hn es hes => ?_) (fun _ hl n hn es hes => ?_) (fun h => by rw [hc] at h; cases h) (fun _ => ⟨hbs.1, hbs.2.1, by omega⟩)⟩
        · have := hb.best hl n hn es hes
          have := hm.2 hl
          have := hs.2 hl
          omega
        · have := hb.best hl n hn es hes
          have := hm.2 hl
          have := hs.2 hl
          omega
      · rw [if_neg hlt]
        obtain ⟨n, n1, n2, n3⟩ := hb.len
        refine ⟨b, rfl, ⟨hb.clique, hb.score, ⟨fun h => (by rw [hb1] at h; cases h), fun h => absurd ⟨hbs.1, hbs.2.1, by omega⟩ h⟩, hb.empty, ⟨n, by omega, n2, n3⟩,
          fun hl n hn es hes => ?_⟩⟩
        rcases Nat.lt_or_ge k n with h | h
        · rw [show n = k + 1 by omega] at hes
          have := h2.best hl es hes
          have := hm.2 hl
          have := hs.2 hl
          omega
        · exact hb.best hl n h es hes

theorem largest_inv {K : Luck} (hK : K.Fair) (k : Nat) (hk : k ≤ P.M + P.N ∨ P.M = 0 ∨ P.N = 0) :
    ∃ b, (List.range k).foldlM (P.improve K) (none, []) = .ok b ∧ Largest P k b := by
  induction k with
  | zero =>
    refine ⟨_, rfl, ⟨fun _ => ⟨fun c h => (nomatch h), .nil, .nil⟩, fun m h => (by cases h), ⟨fun _ => by omega, fun _ => rfl⟩, fun _ => rfl,
      ⟨0, le_refl _, fun c h => (nomatch h), fun _ n hn => (by omega)⟩, fun hl n hn es hes => ?_⟩⟩
    rw [Nat.le_zero] at hn
    subst hn
    rw [native_zero hes]
    exact Nat.zero_le _
  | succ k ih =>
    obtain ⟨b, h1, h2⟩ := ih (by omega)
    obtain ⟨b', h3, h4⟩ := improve_inv hK h2 (by omega)
    refine ⟨b', ?_, h4⟩
    rw [List.range_succ, List.foldlM_append, h1]
    simp only [bind, Except.bind, List.foldlM_cons, List.foldlM_nil, h3]
    rfl

/-- Numbers are compared with `None` when no chains fit any more. -/
theorem largest_type {K : Luck} (hK : K.Fair) (hM : 1 ≤ P.M) (hN : 1 ≤ P.N) (l : Nat) (hl : P.M + P.N < l) : (List.range l).foldlM (P.improve K) (none, []) = .error .type := by
  obtain ⟨b, h1, h2⟩ := largest_inv (P := P) hK (P.M + P.N) (.inl (le_refl _))
  have : List.range l = List.range (P.M + P.N) ++ (P.M + P.N) :: List.range' (P.M + P.N + 1) (l - (P.M + P.N) - 1) := by
    rw [List.range_eq_range', List.range_eq_range', show List.range' 0 l = List.range' 0 ((P.M + P.N) + (l - (P.M + P.N) - 1 + 1)) by congr 1; omega,
      ← List.range'_append_1, List.range'_succ, Nat.zero_add]
  rw [this, List.foldlM_append, h1]
  simp only [bind, Except.bind, List.foldlM_cons]
  obtain ⟨c, h3, h4⟩ := native_result (P := P) (hK.rolls (P.M + P.N)) (hK.mixes (P.M + P.N)) (P.M + P.N)
  have hc : c.1 = none := h4.none_iff.mpr (by omega)
  have : P.improve K b (P.M + P.N) = .error .type := by
    unfold Proc.improve
    simp only [bind, Except.bind, h3, hc]
    cases hb : b.1 with
    | none => exact absurd (h2.absent.mp hb) (by omega)
    | some m => rfl
  rw [this]

theorem path_take {E : List (Qb × Qb)} {chains : List (List Qb)} (h : Clique E chains) (n : Nat) : Clique E (chains.take n) :=
  ⟨fun c hc => h.paths c (List.mem_of_mem_take hc), h.disjoint.sublist (List.take_sublist _ _), h.touch.sublist (List.take_sublist _ _)⟩

theorem tightest_spec {K : Luck} (hK : K.Fair) (n : Nat) (hn : 1 ≤ n) (ws : List Nat) :
    ∃ r, P.tightestFrom K n ws = .ok r ∧ (CellsWhole P.edges → Clique P.edges r.2) ∧
      ((r.2.length = n ∧ ∃ pre w post, ws = pre ++ w :: post ∧ (∀ c ∈ r.2, c.length = w + 1) ∧
          (LinesWhole P.edges → ∀ v ∈ pre, ∀ es, Native P.M P.N (v + 1) es → Spec.Eden.size P.edges P.L es < n)) ∨
        (r = (none, []) ∧ (LinesWhole P.edges → ∀ v ∈ ws, ∀ es, Native P.M P.N (v + 1) es → Spec.Eden.size P.edges P.L es < n))) := by
  induction ws with
  | nil => exact ⟨_, rfl, fun _ => ⟨fun c h => (nomatch h), .nil, .nil⟩, .inr ⟨rfl, fun _ v h => (nomatch h)⟩⟩
  | cons w ws ih =>
    obtain ⟨c, h1, h2⟩ := native_result (P := P) (hK.rolls w) (hK.mixes w) w
    unfold Proc.tightestFrom
    simp only [bind, Except.bind, h1]
    by_cases hlen : n ≤ c.2.length
    · rw [if_pos hlen]
      refine ⟨_, rfl, fun hc => path_take (h2.clique hc) n, .inl ⟨by dsimp only; rw [List.length_take]; omega, [], w, ws, rfl, fun d hd => h2.len d (List.mem_of_mem_take hd),
        fun _ v h => (nomatch h)⟩⟩
    · rw [if_neg hlen]
      obtain ⟨r, i1, i2, i3⟩ := ih
      refine ⟨r, i1, i2, ?_⟩
      have now : LinesWhole P.edges → ∀ es, Native P.M P.N (w + 1) es → Spec.Eden.size P.edges P.L es < n := fun hl es hes => by
        have := h2.best hl es hes
        omega
      rcases i3 with ⟨j1, pre, v, post, rfl, j2, j3⟩ | ⟨j1, j2⟩
      · refine .inl ⟨j1, w :: pre, v, post, rfl, j2, fun hl u hu => ?_⟩
        rcases List.mem_cons.mp hu with rfl | hu
        · exact now hl
        · exact j3 hl u hu
      · refine .inr ⟨j1, fun hl u hu => ?_⟩
        rcases List.mem_cons.mp hu with rfl | hu
        · exact now hl
        · exact j2 hl u hu

end Eden
end MM
