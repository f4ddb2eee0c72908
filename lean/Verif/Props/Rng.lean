import Verif.Rng.FastInv
import Mathlib.Dynamics.PeriodicPts.Lemmas
import Mathlib.Data.Fintype.Prod
import Mathlib.Data.Finite.Prod

/-! C52: the random generator. -/

namespace MM

open Rng

/-- The all-zero state, in which the generator would stay. -/
def zeroState : State := ⟨0#64, 0#64⟩

example : step zeroState = zeroState ∧ stream 3 zeroState = [0#64, 0#64, 0#64] := by decide

/-- States as pairs of numbers. -/
def statePair : State ≃ U64 × U64 := ⟨fun s => (s.s0, s.s1), fun p => ⟨p.1, p.2⟩, fun _ => rfl, fun _ => rfl⟩

instance : Finite U64 := Finite.of_injective (fun x : U64 => x.toFin) fun _ _ h => BitVec.eq_of_toFin_eq h

instance : Finite State := Finite.of_equiv _ statePair.symm

/-- C52, the step: drawing a number is a bijection on the states, so that every state comes back after some number of draws. -/
theorem C52_bijective : Function.Bijective step ∧ (∀ n, Function.Bijective (discard n)) ∧ ∀ s, ∃ n, 0 < n ∧ discard n s = s := by
  have hinj : Function.Injective step := fun _ _ h => step_inj h
  refine ⟨Finite.injective_iff_bijective.mp hinj, fun n => Finite.injective_iff_bijective.mp fun _ _ h => discard_inj h, fun s => ?_⟩
  obtain ⟨n, hn, h⟩ := hinj.mem_periodicPts s
  refine ⟨n, hn, ?_⟩
  have : ∀ n s, discard n s = step^[n] s := by
    intro n
    induction n with
    | zero => intro s; rfl
    | succ n ih => intro s; show discard n (step s) = _; rw [ih]; rfl
  rw [this]; exact h

/-- C52, never stuck: from no seed, with 64 or with 32 bits, does any number of draws reach the all-zero state; nor is it reached from any other state. -/
theorem C52_never_stuck : (∀ x n, discard n (make x) ≠ zeroState) ∧ (∀ x n, discard n (seed64 x) ≠ zeroState) ∧ (∀ x n, discard n (seed32 x) ≠ zeroState) ∧ ∀ s n, s ≠ zeroState → discard n s ≠ zeroState := by
  have h : ∀ s n, s ≠ zeroState → discard n s ≠ zeroState := fun s n hs hz => hs (discard_inj (n := n) (hz.trans (discard_zero n).symm))
  have h1 : ∀ x n, discard n (make x) ≠ zeroState := fun x n => h _ n (make_ne x)
  have h2 : ∀ x n, discard n (seed64 x) ≠ zeroState := fun x n => by rw [seed64, ← discard_add]; exact h1 x _
  exact ⟨h1, h2, fun x n => h2 (amplify x) n, h⟩

/-- C52, seeds: different seeds of 64 bits give different states, also after any number of draws. -/
theorem C52_seeds {x y : U64} (hne : x ≠ y) (n : Nat) : discard n (make x) ≠ discard n (make y) ∧ discard n (seed64 x) ≠ discard n (seed64 y) := by
  refine ⟨fun h => hne (make_inj (discard_inj h)), fun h => hne ?_⟩
  have := discard_inj h
  exact make_inj (discard_inj this)

/-- C52, discarding: the numbers drawn after discarding `n` are those drawn after drawing `n`. -/
theorem C52_stream (n m : Nat) (s : State) : stream (n + m) s = stream n s ++ stream m (discard n s) ∧ (stream n s).length = n := by
  induction n generalizing s with
  | zero => exact ⟨by rw [Nat.zero_add]; rfl, rfl⟩
  | succ n ih =>
    obtain ⟨h1, h2⟩ := ih (draw s).2
    refine ⟨?_, by rw [stream, List.length_cons, h2]⟩
    rw [show n + 1 + m = n + m + 1 from by omega, stream, h1]; rfl

/-- C52, seeds of 32 bits: two numbers in a row from the generator with 32 bits are the halves of the seed with 64 bits. -/
theorem C52_amplify (x : U32) : (amplify x).setWidth 32 = (splitmix32 x).1 ∧ (amplify x >>> 32).setWidth 32 = (splitmix32 (splitmix32 x).2).1 := by
  have hb : ∀ a b : U32, ((b.setWidth 64 <<< 32) + a.setWidth 64).toNat = b.toNat * 2 ^ 32 + a.toNat := by
    intro a b
    have h1 := a.isLt
    have h2 := b.isLt
    rw [BitVec.toNat_add, BitVec.toNat_shiftLeft, BitVec.toNat_setWidth, BitVec.toNat_setWidth, Nat.shiftLeft_eq, Nat.mod_eq_of_lt (a := b.toNat) (by omega), Nat.mod_eq_of_lt (a := a.toNat) (by omega),
      Nat.mod_eq_of_lt (a := b.toNat * 2 ^ 32) (by omega), Nat.mod_eq_of_lt (by omega)]
  refine ⟨BitVec.eq_of_toNat_eq ?_, BitVec.eq_of_toNat_eq ?_⟩
  · have h1 := (splitmix32 x).1.isLt
    rw [BitVec.toNat_setWidth, amplify, hb]; omega
  · have h1 := (splitmix32 x).1.isLt
    have h2 := (splitmix32 (splitmix32 x).2).1.isLt
    rw [BitVec.toNat_setWidth, BitVec.toNat_ushiftRight, amplify, hb, Nat.shiftRight_eq_div_pow]; omega

example : stream 2 (make 0#64) = [(draw (make 0#64)).1, (draw (draw (make 0#64)).2).1] ∧ stream 1 (discard 1 (make 0#64)) = [(draw (draw (make 0#64)).2).1] := by decide

/-- The first numbers drawn from seed 0. -/
example : make 0#64 = ⟨0xe220a8397b1dcdaf#64, 0x6e789e6aa1b965f4#64⟩ := by decide

end MM
