import Verif.Core.Emb
import Verif.Par.Jobs

/-! The chunks of `exec_chunked` cover the qubits. -/

namespace MM

theorem chunks_cover {n k : Nat} (hk : 0 < k) :
    (Par.chunks n k).flatMap (fun c => List.range' c.1 (c.2 - c.1)) = List.range' 0 n := by
  unfold Par.chunks
  rw [Par.chunkLoop_cover]
  have h1 : n % k < k := Nat.mod_lt _ hk
  have h2 := Nat.div_add_mod n k
  congr 1
  rw [Nat.min_eq_right (by omega)]; omega

theorem chunkLoop_pos {g : Nat} : ∀ (i : Nat) (m : Int) (a : Nat), 0 < g →
    ∀ c ∈ Par.chunkLoop g i m a, c.1 < c.2
  | 0, _, _, _, c, hc => by simp [Par.chunkLoop] at hc
  | i+1, m, a, hg, c, hc => by
    unfold Par.chunkLoop at hc
    rcases List.mem_cons.1 hc with rfl | hc
    · dsimp only; omega
    · exact chunkLoop_pos i _ _ hg c hc

theorem maxWeight_spec (E : Emb) {a b : Nat} (hab : a < b) :
    (∃ q, a ≤ q ∧ q < b ∧ E.w q = E.maxWeight a b) ∧ ∀ q, a ≤ q → q < b → E.w q ≤ E.maxWeight a b := by
  have key : ∀ n, ((∃ q, a ≤ q ∧ q < a + max n 1 ∧
      E.w q = (List.range n).foldl (fun m i => max m (E.w (a + i))) (E.w a)) ∧
      ∀ q, a ≤ q → q < a + max n 1 → E.w q ≤ (List.range n).foldl (fun m i => max m (E.w (a + i))) (E.w a)) := by
    intro n
    induction n with
    | zero =>
      refine ⟨⟨a, Nat.le_refl _, by simp, rfl⟩, fun q h1 h2 => ?_⟩
      have : q = a := by omega
      subst this; exact Int.le_refl _
    | succ n ih =>
      rw [List.range_succ, List.foldl_append]
      simp only [List.foldl_cons, List.foldl_nil]
      obtain ⟨⟨q, h1, h2, h3⟩, h4⟩ := ih
      generalize (List.range n).foldl (fun m i => max m (E.w (a + i))) (E.w a) = M at *
      constructor
      · by_cases hm : E.w (a + n) ≤ M
        · exact ⟨q, h1, by omega, by omega⟩
        · exact ⟨a + n, by omega, by omega, by omega⟩
      · intro x x1 x2
        by_cases hx : x < a + max n 1
        · have := h4 x x1 hx; omega
        · have : x = a + n := by omega
          subst this; omega
  have := key (b - a)
  rw [show a + max (b - a) 1 = b by omega] at this
  exact this

theorem chunks_pos {n k : Nat} (hk : 0 < k) (hkn : k ≤ n) : ∀ c ∈ Par.chunks n k, c.1 < c.2 :=
  chunkLoop_pos _ _ _ (Nat.div_pos hkn hk)

theorem chunks_le {n k : Nat} (hk : 0 < k) (hkn : k ≤ n) : ∀ c ∈ Par.chunks n k, c.2 ≤ n := by
  intro c hc
  have hp := chunks_pos hk hkn c hc
  have : c.2 - 1 ∈ List.range' 0 n := by
    rw [← chunks_cover hk]
    exact List.mem_flatMap.2 ⟨c, hc, List.mem_range'_1.2 (by omega)⟩
  have := (List.mem_range'_1.1 this).2
  omega

/-- The largest of the chunks' largest fills. -/
theorem chunks_max {n k : Nat} (hk : 0 < k) (hkn : k ≤ n) (E : Emb) {M : Int}
    (hM : M ∈ (Par.chunks n k).map (fun c => E.maxWeight c.1 c.2))
    (hmax : ∀ x ∈ (Par.chunks n k).map (fun c => E.maxWeight c.1 c.2), x ≤ M) : M = E.maxWeight 0 n := by
  have hcov := chunks_cover (n := n) hk
  have hpos := chunks_pos hk hkn
  have hle := chunks_le hk hkn
  have hn : 0 < n := by omega
  obtain ⟨⟨q, q1, q2, q3⟩, all⟩ := maxWeight_spec E hn
  obtain ⟨c, hc, rfl⟩ := List.mem_map.1 hM
  obtain ⟨⟨p, p1, p2, p3⟩, _⟩ := maxWeight_spec E (hpos c hc)
  apply Int.le_antisymm
  · rw [← p3]; exact all p (by omega) (by have := hle c hc; omega)
  · have : q ∈ (Par.chunks n k).flatMap (fun c => List.range' c.1 (c.2 - c.1)) := by
      rw [hcov]; exact List.mem_range'_1.2 (by omega)
    obtain ⟨d, hd, hqd⟩ := List.mem_flatMap.1 this
    have hqd := List.mem_range'_1.1 hqd
    have h1 := (maxWeight_spec E (hpos d hd)).2 q (by omega) (by omega)
    have h2 := hmax _ (List.mem_map.2 ⟨d, hd, rfl⟩)
    omega

end MM
