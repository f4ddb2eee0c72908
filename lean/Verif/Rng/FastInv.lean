import Verif.Rng.Fast

/-! The steps of the generator can be undone. -/

namespace MM
namespace Rng

theorem xor_shl_inj {n : Nat} (hn : 0 < n) {x y : U64} (h : x ^^^ (x <<< n) = y ^^^ (y <<< n)) : x = y := by
  have key : ∀ i, i < 64 → x.getLsbD i = y.getLsbD i := by
    intro i
    induction i using Nat.strongRecOn with
    | ind i ih =>
      intro hi
      have hb := congrArg (fun z : U64 => z.getLsbD i) h
      simp only [BitVec.getLsbD_xor, BitVec.getLsbD_shiftLeft, hi, decide_true, Bool.true_and] at hb
      by_cases hin : i < n
      · simpa [hin] using hb
      · rw [ih (i - n) (by omega) (by omega)] at hb
        revert hb
        cases x.getLsbD i <;> cases y.getLsbD i <;> cases y.getLsbD (i - n) <;> simp [hin]
  exact BitVec.eq_of_getLsbD_eq fun i hi => key i hi

theorem xor_shr_inj {n : Nat} (hn : 0 < n) {x y : U64} (h : x ^^^ (x >>> n) = y ^^^ (y >>> n)) : x = y := by
  have key : ∀ m i, 64 ≤ m + i → x.getLsbD i = y.getLsbD i := by
    intro m
    induction m using Nat.strongRecOn with
    | ind m ih =>
      intro i hi
      by_cases h64 : 64 ≤ i
      · rw [BitVec.getLsbD_of_ge _ _ h64, BitVec.getLsbD_of_ge _ _ h64]
      · have hb := congrArg (fun z : U64 => z.getLsbD i) h
        simp only [BitVec.getLsbD_xor, BitVec.getLsbD_ushiftRight] at hb
        have hnext : x.getLsbD (n + i) = y.getLsbD (n + i) := ih (m - n) (by omega) (n + i) (by omega)
        rw [hnext] at hb
        revert hb
        cases x.getLsbD i <;> cases y.getLsbD i <;> cases y.getLsbD (n + i) <;> simp
  exact BitVec.eq_of_getLsbD_eq fun i hi => key (64 - i) i (by omega)

theorem mul_inj {k k' : U64} (hk : k * k' = 1#64) {x y : U64} (h : x * k = y * k) : x = y := by
  have := congrArg (· * k') h
  simpa [BitVec.mul_assoc, hk] using this

theorem mix_inj {x y : U64} (h : mix x = mix y) : x = y := by
  simp only [mix] at h
  have h1 := xor_shr_inj (by decide) h
  have h2 := mul_inj (k' := 0x319642B2D24D8EC3#64) (by decide) h1
  have h3 := xor_shr_inj (by decide) h2
  have h4 := mul_inj (k' := 0x96DE1B173F119089#64) (by decide) h3
  exact xor_shr_inj (by decide) h4

theorem step_inj {s t : State} (h : step s = step t) : s = t := by
  obtain ⟨a, b⟩ := s
  obtain ⟨c, d⟩ := t
  simp only [step, State.mk.injEq] at h
  obtain ⟨rfl, h⟩ := h
  congr 1
  generalize hx : a ^^^ a <<< 23 = x at h
  generalize hy : c ^^^ c <<< 23 = y at h
  have : x ^^^ (x >>> 17) = y ^^^ (y >>> 17) := by
    have e : ∀ p q r t : U64, p ^^^ q ^^^ r ^^^ t = (p ^^^ r) ^^^ (q ^^^ t) := by
      intro p q r t; ac_rfl
    rw [e, e] at h
    have := congrArg (· ^^^ (b ^^^ b >>> 26)) h
    simpa [BitVec.xor_assoc] using this
  have := xor_shr_inj (by decide) this
  subst this
  exact xor_shl_inj (by decide) (hx.trans hy.symm)

theorem discard_succ (n : Nat) (s : State) : discard (n + 1) s = step (discard n s) := by
  induction n generalizing s with
  | zero => rfl
  | succ n ih => rw [discard, ih]; rfl

theorem discard_inj {n : Nat} {s t : State} (h : discard n s = discard n t) : s = t := by
  induction n generalizing s t with
  | zero => exact h
  | succ n ih => exact step_inj (ih h)

theorem discard_zero (n : Nat) : discard n ⟨0#64, 0#64⟩ = ⟨0#64, 0#64⟩ := by
  induction n with
  | zero => rfl
  | succ n ih => rw [discard]; exact ih

theorem discard_add (m n : Nat) (s : State) : discard (m + n) s = discard n (discard m s) := by
  induction m generalizing s with
  | zero => rw [Nat.zero_add]; rfl
  | succ m ih => rw [Nat.succ_add, discard, ih]; rfl

theorem make_ne (x : U64) : make x ≠ ⟨0#64, 0#64⟩ := by
  intro h
  simp only [make, splitmix64, State.mk.injEq] at h
  have h0 : mix 0#64 = 0#64 := by decide
  have h1 := mix_inj (h.1.trans h0.symm)
  have h2 := mix_inj (h.2.trans h0.symm)
  rw [h1] at h2
  exact absurd h2 (by decide)

theorem make_inj {x y : U64} (h : make x = make y) : x = y := by
  simp only [make, splitmix64, State.mk.injEq] at h
  have := mix_inj h.1
  simpa using this

end Rng
end MM
