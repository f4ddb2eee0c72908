import Verif.Props.Options
import Mathlib.Data.Rat.Floor
import Mathlib.Tactic.Positivity

/-! C108: the parameter `timeout`. -/

namespace MM

open Py Spec.Py
open Scratch (Cfg)

namespace Py

theorem cut_nonneg {q : Rat} (h : 0 ≤ q) : ((cut q : Int) : Rat) ≤ q ∧ q < cut q + 1 := by
  have hn : 0 ≤ q.num := Rat.num_nonneg.mpr h
  have : cut q = ⌊q⌋ := by
    unfold cut
    rw [Int.tdiv_eq_ediv_of_nonneg hn, Rat.floor_def']
  rw [this]
  exact ⟨Int.floor_le q, Int.lt_floor_add_one q⟩

theorem cut_small {q : Rat} (h : q < 1) : cut q ≤ 0 := by
  by_cases h0 : 0 ≤ q
  · have := (cut_nonneg h0).1
    have h1 : ((cut q : Int) : Rat) < 1 := lt_of_le_of_lt this h
    have h2 : cut q < 1 := by exact_mod_cast h1
    omega
  · unfold cut
    have hn : q.num ≤ 0 := by
      have := Rat.num_nonneg (q := q)
      by_contra hc
      exact h0 (this.mp (by omega))
    rw [show q.num = -(-q.num) by omega, Int.neg_tdiv]
    have : 0 ≤ (-q.num).tdiv q.den := Int.tdiv_nonneg (by omega) (Int.natCast_nonneg _)
    omega

theorem i64_ok {x y : Int} : i64 x = .ok y ↔ y = x ∧ -2 ^ 63 ≤ x ∧ x < 2 ^ 63 := by
  unfold i64
  split
  · next h => constructor
              · intro hh; cases hh; exact ⟨rfl, h⟩
              · rintro ⟨rfl, _⟩; rfl
  · next h => constructor
              · intro hh; cases hh
              · rintro ⟨_, hh⟩; exact absurd hh h

theorem stopTime_ok {now stop : Int} {q : Rat} : stopTime now (.num q) = .ok stop ↔
    stop = now + cut (q * 10 ^ 9) ∧ -2 ^ 63 ≤ cut (q * 10 ^ 9) ∧ cut (q * 10 ^ 9) < 2 ^ 63 ∧ -2 ^ 63 ≤ stop ∧ stop < 2 ^ 63 := by
  unfold stopTime
  rw [bind_ok]
  simp only [i64_ok]
  constructor
  · rintro ⟨b, ⟨rfl, h1, h2⟩, rfl, h3, h4⟩
    exact ⟨rfl, h1, h2, h3, h4⟩
  · rintro ⟨rfl, h1, h2, h3, h4⟩
    exact ⟨_, ⟨rfl, h1, h2⟩, rfl, h3, h4⟩

end Py

/-- **C108, the stop time.** For a timeout of `q` seconds, `0 ≤ q ≤ 7·10⁹`, and a clock that shows the nanoseconds since
1970 (up to the year 2033), the search stops when the clock shows `q` seconds more than at its start, rounded down to a
nanosecond; nothing overflows. -/
theorem C108_stop_time (now : Int) (h0 : 0 ≤ now) (h1 : now ≤ 2 * 10 ^ 18) (q : Rat) (hq : 0 ≤ q) (hq' : q ≤ 7 * 10 ^ 9) :
    ∃ stop, stopTime now (.num q) = .ok stop ∧ (stop : Rat) ≤ now + q * 10 ^ 9 ∧ now + q * 10 ^ 9 < stop + 1 := by
  have hp : 0 ≤ q * 10 ^ 9 := by positivity
  obtain ⟨c1, c2⟩ := cut_nonneg hp
  have hc0 : 0 ≤ cut (q * 10 ^ 9) := by
    have : (-1 : Rat) < cut (q * 10 ^ 9) := by linarith
    have : (-1 : Int) < cut (q * 10 ^ 9) := by exact_mod_cast this
    omega
  have hc1 : cut (q * 10 ^ 9) ≤ 7 * 10 ^ 18 := by
    have : ((cut (q * 10 ^ 9) : Int) : Rat) ≤ 7 * 10 ^ 18 := by
      calc ((cut (q * 10 ^ 9) : Int) : Rat) ≤ q * 10 ^ 9 := c1
        _ ≤ 7 * 10 ^ 9 * 10 ^ 9 := by nlinarith
        _ = 7 * 10 ^ 18 := by norm_num
    exact_mod_cast this
  refine ⟨now + cut (q * 10 ^ 9), stopTime_ok.mpr ⟨rfl, by omega, by omega, by omega, by omega⟩, ?_, ?_⟩
  · push_cast; linarith
  · push_cast; linarith

variable {α : Type} [DecidableEq α] {pin : α → Nat → α} {sort : List (List Nat) → List (List Nat)}

/-- A timeout that cannot be represented: infinite, not a number, or at least `2 ^ 63` nanoseconds, that is 292 years. -/
def Py.Dbl.TooLong : Dbl → Prop
  | .num q => 2 ^ 63 ≤ q * 10 ^ 9
  | _ => True

theorem Py.stopTime_tooLong {now : Int} {d : Dbl} (h : d.TooLong) : stopTime now d = .error .ub := by
  cases d with
  | inf _ => rfl
  | nan => rfl
  | num q =>
    unfold Dbl.TooLong at h
    have hp : 0 ≤ q * 10 ^ 9 := by
      have : (0 : Rat) ≤ 2 ^ 63 := by positivity
      linarith
    have c := (cut_nonneg hp).2
    have : (2 ^ 63 : Rat) < cut (q * 10 ^ 9) + 1 := by linarith
    have h2 : (2 ^ 63 : Int) < cut (q * 10 ^ 9) + 1 := by exact_mod_cast this
    unfold stopTime i64
    dsimp only
    rw [if_neg (by omega)]
    rfl

/-- **C108 fails: no limit.** With `timeout=float("inf")`, a natural way to ask for no limit, and with any timeout of
more than 292 years, no call for a source graph that is not empty returns anything: its behaviour is undefined, unless
the arguments are refused first. -/
theorem C108_too_long_is_undefined (hs : SortOK sort) (V : Surroundings) (fuel : Nat) (given : List (String × Obj))
    (hk : (given.map Prod.fst).Nodup) (o : Opts) (hn : ∀ p ∈ given, p.1 ∈ documentedNames)
    (ho : Means { documented V.urandom with clPatience := 2 } (documented V.urandom) given o) (ht : o.timeout.TooLong)
    (a : Args α) (hA : a.OK) (P : Parsed α) (hp : a.parse pin = .ok P) :
    findEmbeddingPublic pin sort V fuel given a = .undefined ∨
    findEmbeddingPublic pin sort V fuel given a = .raises (.lib .ValueError) ∨
    findEmbeddingPublic pin sort V fuel given a = .dies := by
  obtain ⟨qs, hq, hqs⟩ := (C107_public V.urandom given hk o).mpr ⟨hn, ho⟩
  obtain ⟨hI, _⟩ := parse_ok hp hA
  have hrun : findEmbeddingPublic pin sort V fuel given a = outcome (answer P o.returnOverlap (o.search sort V fuel P.input)) := by
    unfold findEmbeddingPublic
    rw [hq]
    dsimp only
    unfold inner
    rw [hqs]
    dsimp only
    rw [hp]
  rw [hrun]
  unfold Opts.search
  rcases process_spec hs hI with ⟨p, hp, _⟩ | h | h
  · rw [hp]
    dsimp only
    split
    · exact .inr (.inl rfl)
    · rw [stopTime_tooLong ht]
      exact .inl rfl
  · rw [h]
    exact .inr (.inl rfl)
  · rw [h]
    dsimp only
    split
    · exact .inr (.inl rfl)
    · exact .inr (.inr rfl)

theorem findEmbeddingS_stopped {C : Cfg} {A : Params} {N : Counts} {fuel : Nat} {ro : Bool} {I : Input} {t : Tape}
    (hA : A.skipInit = false) (hstop : ∀ n, (A.stops n).2 = true) {ok : Bool} {cs : List (List Nat)}
    (h : findEmbeddingS sort C A N fuel ro I t = .ok (ok, cs)) : ok = false ∧ (ro = false → cs = []) := by
  unfold findEmbeddingS at h
  obtain ⟨p, hp, h⟩ := bind_ok.mp h
  obtain ⟨X, hX, h⟩ := bind_ok.mp h
  obtain ⟨⟨Y, b⟩, hY, h⟩ := bind_ok.mp h
  have hb : b = false := by
    unfold Run.heuristicS at hY
    obtain ⟨⟨Z, go⟩, hZ, hY⟩ := bind_ok.mp hY
    have hgo : go = false := by
      unfold Run.start at hZ
      dsimp only at hZ
      rw [if_neg (by simp [hA])] at hZ
      obtain ⟨⟨W, res⟩, hW, hZ⟩ := bind_ok.mp hZ
      unfold Run.initPass at hW
      obtain ⟨X1, _, hW⟩ := bind_ok.mp hW
      obtain ⟨⟨X2, got⟩, _, hW⟩ := bind_ok.mp hW
      dsimp only at hW
      split at hW
      · unfold Run.checkStops at hW
        dsimp only at hW
        split at hW
        · split at hW
          · cases hW; cases hZ; rfl
          · cases hW
        · split at hW
          · cases hW; cases hZ; rfl
          · next h2 => exact absurd (hstop _) h2
      · cases hW; cases hZ
    subst hgo
    cases hY
    rfl
  subst hb
  dsimp only at h
  cases ro with
  | true =>
    rw [if_pos (by simp)] at h
    obtain ⟨cs', _, h⟩ := bind_ok.mp h
    cases h
    exact ⟨rfl, fun h => by cases h⟩
  | false =>
    rw [if_neg (by simp)] at h
    cases h
    exact ⟨rfl, fun _ => rfl⟩

/-- **C108, no time.** With a timeout below a nanosecond, zero or negative, and a clock that does not run backwards, a
call that does not skip the initialization never reports success, whatever its other parameters. -/
theorem C108_no_time (V : Surroundings) (hclock : ∀ n, V.now ≤ V.clock n) (fuel : Nat) (given : List (String × Obj))
    (hk : (given.map Prod.fst).Nodup) (o : Opts) (hn : ∀ p ∈ given, p.1 ∈ documentedNames)
    (ho : Means { documented V.urandom with clPatience := 2 } (documented V.urandom) given o) (q : Rat)
    (ht : o.timeout = .num q) (hq : q * 10 ^ 9 < 1) (hskip : o.skipInit = false) (a : Args α) (r : Result α)
    (h : findEmbeddingPublic pin sort V fuel given a = .returns r) : ¬ r.Success := by
  intro hr
  obtain ⟨qs, hqs, hread⟩ := (C107_public V.urandom given hk o).mpr ⟨hn, ho⟩
  unfold findEmbeddingPublic at h
  rw [hqs] at h
  dsimp only at h
  unfold inner at h
  rw [hread] at h
  dsimp only at h
  cases hp : a.parse pin with
  | error e =>
    rw [hp] at h
    have := outcome_returns h hr
    cases this
  | ok P =>
    rw [hp] at h
    have h := outcome_returns h hr
    unfold answer at h
    cases hm : o.search sort V fuel P.input with
    | error f => rw [hm] at h; cases h
    | ok x =>
      obtain ⟨ok, cs⟩ := x
      rw [hm] at h
      dsimp only at h
      have hx : ok = false ∧ (o.returnOverlap = false → cs = []) := by
        unfold Opts.search at hm
        cases hpr : P.input.process sort with
        | error e =>
          rw [hpr] at hm
          cases e with
          | small => dsimp only at hm; split at hm <;> cases hm
          | ub => cases hm
          | diverge => cases hm
          | badInit => cases hm
          | cancelled => cases hm
          | corrupt => cases hm
        | ok p =>
          rw [hpr] at hm
          dsimp only at hm
          split at hm
          · cases hm
          · rw [ht] at hm
            cases hst : stopTime V.now (.num q) with
            | error e => rw [hst] at hm; cases hm
            | ok stop =>
              rw [hst] at hm
              dsimp only at hm
              refine findEmbeddingS_stopped (by exact hskip) ?_ hm
              intro n
              have h1 := (stopTime_ok.mp hst).1
              have h2 := cut_small hq
              have h3 := hclock n
              show decide (stop ≤ V.clock n) = true
              rw [decide_eq_true_eq]
              omega
      obtain ⟨hok, hcs⟩ := hx
      subst hok
      cases hro : o.returnOverlap with
      | false =>
        have := hcs hro
        subst this
        simp only [List.take_nil, rchain, hro] at h
        cases h
        rcases hr with hr | hr
        · cases hr
        · exact hr.2 rfl
      | true =>
        rw [hro] at h
        cases hc : rchain P.S.L P.T.L 0 (cs.take (cs.length - P.pins)) with
        | error e => rw [hc] at h; cases h
        | ok d =>
          rw [hc] at h
          cases h
          rcases hr with hr | hr
          · cases hr
          · cases hr.1

/-! ### Concrete calls -/

namespace Demo

/-- `float("inf")`. -/
def infinity : Obj := ⟨false, some true, none, some (.inf false)⟩

/-- Whether a call ends in undefined behaviour. -/
def isUndefined {α : Type} : Ending α → Bool
  | .undefined => true
  | _ => false

end Demo

example : Demo.isUndefined (findEmbeddingPublic Demo.pin9 Demo.sortBySize Demo.env 20 [("timeout", Demo.infinity)] Demo.loops) = true := by
  decide +kernel

example : (Dbl.inf false).TooLong ∧ Means { documented 12 with clPatience := 2 } (documented 12) [("timeout", Demo.infinity)]
    { documented 12 with timeout := .inf false } :=
  ⟨trivial, ((C107_public 12 _ (by decide) _).mp ⟨_, rfl, by decide +kernel⟩).2⟩

example : ∃ stop, stopTime 1794000000000000000 (.num (3 / 2)) = .ok stop ∧
    (stop : Rat) ≤ (1794000000000000000 : Int) + 3 / 2 * 10 ^ 9 ∧ (1794000000000000000 : Int) + 3 / 2 * 10 ^ 9 < (stop : Rat) + 1 :=
  C108_stop_time _ (by decide) (by decide) _ (by norm_num) (by norm_num)

/-- A call without time returns nothing. -/
example : Demo.dictOf (findEmbeddingPublic Demo.pin9 Demo.sortBySize Demo.env 20 [("timeout", .ofInt 0)] Demo.loops) = some ([], none) := by
  decide +kernel

example (r : Result Nat) (h : findEmbeddingPublic Demo.pin9 Demo.sortBySize Demo.env 20 [("timeout", .ofInt 0)] Demo.loops = .returns r) :
    ¬ r.Success :=
  C108_no_time Demo.env (fun _ => le_refl _) 20 _ (by decide) { documented 12 with timeout := .num 0 } (by decide)
    ((C107_public 12 _ (by decide) _).mp ⟨_, rfl, by decide +kernel⟩).2 0 rfl (by norm_num) rfl Demo.loops r h

end MM
