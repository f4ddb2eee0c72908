import Verif.Graph.SignedInv
import Verif.Props.Improve
import Verif.Props.Demo

/-! C106: `tries`, `inner_rounds`, `max_no_improvement` and `chainlength_patience` are `int`s and may be
negative. -/

namespace MM

open Scratch (Cfg)

variable {sort : List (List Nat) → List (List Nat)} {I : Input}

/-- **C106, counts that are not negative.** Counts below `2 ^ 31` work as natural numbers, for a source of
fewer than `2 ^ 29` nodes: no decrement leaves the range of `int`. From some number on, the bound on
the number of passes does not matter. -/
theorem C106_nonnegative (hs : SortOK sort) (hI : I.OK) (hr : I.Compatible) (hn : I.src.n < 2 ^ 29) (C : Cfg)
    (A : Params) (h1 : A.tries < 2 ^ 31) (h2 : A.innerRounds < 2 ^ 31) (h3 : A.maxNoImp < 2 ^ 31)
    (h4 : A.clPatience < 2 ^ 31) (ro : Bool) (t : Tape) :
    ∃ f0 : Nat, ∀ fuel : Nat, f0 ≤ fuel →
      findEmbeddingS sort C A ⟨A.tries, A.innerRounds, A.maxNoImp, A.clPatience⟩ fuel ro I t =
        findEmbedding sort C A ro I t := by
  unfold findEmbeddingS findEmbedding
  rcases process_spec hs hI with ⟨p, hp, l0, hrep⟩ | hbad | hbad
  · refine ⟨Run.shrinkFuel p.P A, fun fuel hf => ?_⟩
    rw [hp]
    have d1 := dom_free p.P
    have d3 := hrep.initOK hI
    obtain ⟨X, hX, _⟩ := Run.new_spec hrep.wf d1 d3 t
    dsimp only [bind, Except.bind]
    rw [hX]
    dsimp only
    have hN : 0 < p.P.N := by rw [hrep.hN]; exact hI.src_pos
    have hnv : p.P.nv < 2 ^ 29 := by
      have := hrep.hN
      unfold Prob.N at this
      omega
    have e1 := heuristicS_eq (C := C) (A := { A with restricted := !I.restrC.isEmpty }) hnv ⟨h1, h2, h3, h4⟩ fuel X
    have e2 := (C09_improvement_terminates (C := C) (A := { A with restricted := !I.restrC.isEmpty }) hrep.wf d1
      (hrep.even' hr) hN d3 hX hf).2
    have e3 : Run.heuristicS p.P C { A with restricted := !I.restrC.isEmpty }
        ⟨A.tries, A.innerRounds, A.maxNoImp, A.clPatience⟩ fuel X =
        Run.heuristic p.P C { A with restricted := !I.restrC.isEmpty } X := e1.trans e2
    rw [e3]
  · exact ⟨0, fun _ _ => by rw [hbad]; simp only [bind, Except.bind]⟩
  · exact ⟨0, fun _ _ => by rw [hbad]; simp only [bind, Except.bind]⟩

/-- **C106, validity.** Whatever the counts, negative or not, a reported success is a minor embedding. -/
theorem C106_success_is_minor_embedding (hs : SortOK sort) (hI : I.OK) (hr : I.restrC = []) (C : Cfg) (A : Params)
    (N : Counts) (fuel : Nat) (ro : Bool) (t : Tape) (cs : List (List Nat))
    (h : findEmbeddingS sort C A N fuel ro I t = .ok (true, cs)) : Spec.EmbedsUpTo I.FixV I.src I.tgt cs := by
  have hc := Input.compatible_of_nil hr
  obtain ⟨p, l0, X, Y, hp, hrep, hX, hY, hg⟩ := findEmbeddingS_run hs hI hc h
  have d1 := dom_free p.P
  have h0 := (Run.new_spec hrep.wf d1 (hrep.initOK hI) t).of_eq hX
  have hN : 0 < p.P.N := by rw [hrep.hN]; exact hI.src_pos
  obtain ⟨g1, g2⟩ := (heuristicS_good hrep.wf d1 (hrep.even' hc) hN h0 fuel _ hY).1 rfl
  exact hrep.good_success hI g1 g2 (hg rfl)

/-- **C106, negative tries.** A call with negative `tries` that is never stopped does not give up: if it
returns, then with an embedding. -/
theorem C106_negative_tries (hs : SortOK sort) (hI : I.OK) (hr : I.restrC = []) (C : Cfg) (A : Params) (N : Counts)
    (hA : ∀ n, A.stops n = (false, false)) (hN : N.tries < 0) (fuel : Nat) (ro : Bool) (t : Tape)
    (r : Bool × List (List Nat)) (h : findEmbeddingS sort C A N fuel ro I t = .ok r) : r.1 = true := by
  have hc := Input.compatible_of_nil hr
  obtain ⟨p, l0, X, Y, hp, hrep, hX, hY, hg⟩ := findEmbeddingS_run hs hI hc h
  have d1 := dom_free p.P
  have h0 := (Run.new_spec hrep.wf d1 (hrep.initOK hI) t).of_eq hX
  have hp : 0 < p.P.N := by rw [hrep.hN]; exact hI.src_pos
  refine (heuristicS_good hrep.wf d1 (hrep.even' hc) hp h0 fuel _ hY).2.1 ?_ hN
  rintro ⟨n, h | h⟩
  · have h' : (A.stops n).1 = true := h
    rw [hA n] at h'; simp at h'
  · have h' : (A.stops n).2 = true := h
    rw [hA n] at h'; simp at h'

/-- **C106, negative patience.** A call with negative `chainlength_patience` that is never stopped does not
return an embedding, however many passes it is allowed: having found one it shortens chains for ever (or
until the counter leaves the range of `int`). -/
theorem C106_negative_patience (hs : SortOK sort) (hI : I.OK) (hr : I.restrC = []) (C : Cfg) (A : Params) (N : Counts)
    (hA : ∀ n, A.stops n = (false, false)) (hN : N.clPatience < 0) (fuel : Nat) (ro : Bool) (t : Tape)
    (r : Bool × List (List Nat)) (h : findEmbeddingS sort C A N fuel ro I t = .ok r) : r.1 = false := by
  have hc := Input.compatible_of_nil hr
  obtain ⟨p, l0, X, Y, hp, hrep, hX, hY, hg⟩ := findEmbeddingS_run hs hI hc h
  have d1 := dom_free p.P
  have h0 := (Run.new_spec hrep.wf d1 (hrep.initOK hI) t).of_eq hX
  have hp : 0 < p.P.N := by rw [hrep.hN]; exact hI.src_pos
  refine (heuristicS_good hrep.wf d1 (hrep.even' hc) hp h0 fuel _ hY).2.2 ?_ hN
  rintro ⟨n, h | h⟩
  · have h' : (A.stops n).1 = true := h
    rw [hA n] at h'; simp at h'
  · have h' : (A.stops n).2 = true := h
    rw [hA n] at h'; simp at h'

/-- **C106 fails: both negative.** Without a stop such a call never returns. -/
theorem C106_never_returns (hs : SortOK sort) (hI : I.OK) (hr : I.restrC = []) (C : Cfg) (A : Params) (N : Counts)
    (hA : ∀ n, A.stops n = (false, false)) (h1 : N.tries < 0) (h2 : N.clPatience < 0) (fuel : Nat) (ro : Bool)
    (t : Tape) (r : Bool × List (List Nat)) : findEmbeddingS sort C A N fuel ro I t ≠ .ok r := by
  intro h
  have a := C106_negative_tries hs hI hr C A N hA h1 fuel ro t r h
  have b := C106_negative_patience hs hI hr C A N hA h2 fuel ro t r h
  rw [a] at b; simp at b

/-- **C106, negative patience and a time limit.** If the same call with patience 0 finds an embedding, and the
time is up from the `n`-th look at the clock on, then with a negative patience the call returns a minor
embedding after at most `n + 1` passes, unless `n` is so large that the counter leaves the range of `int`. -/
theorem C106_negative_patience_timeout (hs : SortOK sort) (hI : I.OK) (hr : I.restrC = []) (C : Cfg) (A : Params)
    (N : Counts) (hi : ∀ m, (A.stops m).1 = false) {n : Nat} (hn : ∀ m, n ≤ m → (A.stops m).2 = true)
    (hN : N.clPatience < 0) (hN' : (n : Int) + 1 - 2 ^ 31 ≤ N.clPatience) (fuel : Nat) (ro : Bool) (t : Tape)
    (cs : List (List Nat)) (h : findEmbeddingS sort C A { N with clPatience := 0 } fuel ro I t = .ok (true, cs)) :
    ∃ cs', findEmbeddingS sort C A N (n + 1) ro I t = .ok (true, cs') ∧ Spec.EmbedsUpTo I.FixV I.src I.tgt cs' := by
  have hc := Input.compatible_of_nil hr
  obtain ⟨p, l0, X, Y, hp, hrep, hX, hY, _⟩ := findEmbeddingS_run hs hI hc h
  have d1 := dom_free p.P
  have h0 := (Run.new_spec hrep.wf d1 (hrep.initOK hI) t).of_eq hX
  have hpos : 0 < p.P.N := by rw [hrep.hN]; exact hI.src_pos
  have hh : ¬ Params.Halts { A with restricted := !I.restrC.isEmpty } := by
    rintro ⟨_, m, hm⟩
    have hm' : (A.stops m).1 = true := hm
    rw [hi m] at hm'; simp at hm'
  obtain ⟨⟨Z, ok⟩, hZ, g1, g2, g3⟩ := heuristicS_timeout hrep.wf d1 (hrep.even' hc) hpos h0 hh hn (by omega) hN hY rfl
  dsimp only at g1 g2 g3
  subst g3
  obtain ⟨cs', hcs, _⟩ := hrep.getChains Z.best (List.range I.src.n) Z.S.tape
  have hrun : findEmbeddingS sort C A N (n + 1) ro I t = .ok (true, cs') := by
    unfold findEmbeddingS
    rw [hp]
    dsimp only [bind, Except.bind]
    rw [hX]
    dsimp only
    rw [hZ]
    dsimp only
    rw [if_pos (by simp), hcs]
  exact ⟨cs', hrun, C106_success_is_minor_embedding hs hI hr C A N (n + 1) ro t cs' hrun⟩

namespace Demo

/-- All counts negative, except the patience of the last phase. -/
def negative : Counts := ⟨-1, -7, -3, 0⟩

theorem path3_negative : findEmbeddingS sortBySize cfg params negative 1 false path3 tape0 =
    .ok (true, [[2], [3], [4]]) := by
  decide +kernel

theorem triangle_patient : findEmbeddingS sortBySize cfg params ⟨2, 2, 2, -1⟩ 1 true triangle tape0 =
    .ok (false, [[1], [2], [3, 2]]) := by
  decide +kernel

/-- The time is up at the fifth look at the clock. -/
def until5 : Params := { params with stops := fun n => (false, decide (4 ≤ n)) }

theorem path3_until5 : findEmbeddingS sortBySize cfg until5 negative 1 false path3 tape0 =
    .ok (true, [[2], [3], [4]]) := by
  decide +kernel

end Demo

example : ∃ f0 : Nat, ∀ fuel : Nat, f0 ≤ fuel →
    findEmbeddingS Demo.sortBySize Demo.cfg Demo.params ⟨2, 2, 2, 1⟩ fuel true Demo.triangle Demo.tape0 =
      .ok (false, [[1], [2], [3, 2]]) := by
  have := C106_nonnegative Demo.sortOK Demo.triangle_ok (Input.compatible_of_nil rfl) (by decide) Demo.cfg Demo.params
    (by decide) (by decide) (by decide) (by decide) true Demo.tape0
  rw [Demo.triangle_run] at this
  exact this

example : Spec.EmbedsUpTo Demo.path3.FixV Demo.path3.src Demo.path3.tgt [[2], [3], [4]] :=
  C106_success_is_minor_embedding Demo.sortOK Demo.path3_ok rfl _ _ _ _ _ _ _ Demo.path3_negative

example : (true, [[2], [3], [4]]).1 = true :=
  C106_negative_tries Demo.sortOK Demo.path3_ok rfl _ _ Demo.negative (fun _ => rfl) (by decide) _ _ _ _ Demo.path3_negative

example : (false, [[1], [2], [3, 2]]).1 = false :=
  C106_negative_patience Demo.sortOK Demo.triangle_ok rfl _ _ _ (fun _ => rfl) (by decide) _ _ _ _ Demo.triangle_patient

/-- A call that returns with patience 1 (see `Demo.path3_run`) does not with patience -1. -/
example (fuel : Nat) (r : Bool × List (List Nat)) :
    findEmbeddingS Demo.sortBySize Demo.cfg Demo.params ⟨-1, 2, 2, -1⟩ fuel false Demo.path3 Demo.tape0 ≠ .ok r :=
  C106_never_returns Demo.sortOK Demo.path3_ok rfl _ _ _ (fun _ => rfl) (by decide) (by decide) _ _ _ _

example : ∃ cs', findEmbeddingS Demo.sortBySize Demo.cfg Demo.until5 { Demo.negative with clPatience := -10 } 5 false Demo.path3
    Demo.tape0 = .ok (true, cs') ∧ Spec.EmbedsUpTo Demo.path3.FixV Demo.path3.src Demo.path3.tgt cs' :=
  C106_negative_patience_timeout (n := 4) Demo.sortOK Demo.path3_ok rfl _ _ _ (fun _ => rfl)
    (fun m hm => by simp [Demo.until5, hm]) (by decide) (by decide) 1 _ _ _ Demo.path3_until5

end MM
