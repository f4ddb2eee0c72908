import Verif.Py.OptionsInv
import Verif.Props.Signed
import Verif.Props.Labels

/-! C107: what the keyword parameters mean. -/

namespace MM

namespace Spec.Py

open MM.Py (Obj Dbl Opts)

/-- The seventeen parameters of the documentation. -/
def documentedNames : List String :=
  ["max_no_improvement", "random_seed", "timeout", "max_beta", "tries", "inner_rounds", "chainlength_patience",
   "max_fill", "threads", "return_overlap", "skip_initialization", "verbose", "interactive", "initial_chains",
   "fixed_chains", "restrict_chains", "suspend_chains"]

/-- The documented defaults: no limit for `inner_rounds`, `max_fill` and `max_beta` is the largest number
there is. `u` is a random seed. -/
def documented (u : Nat) : Opts where
  maxNoImp := 10
  seed := u
  timeout := .num 1000
  maxBeta := .num ((2 ^ 53 - 1) * 2 ^ 971 : Nat)
  tries := 10
  innerRounds := 2147483647
  clPatience := 10
  maxFill := 2147483647
  threads := 1
  returnOverlap := false
  skipInit := false
  verbose := 0
  interactive := false

/-- The value `v` of a parameter: what was given, converted as `R` says; `none` for `None`; `absent` if nothing was
given. -/
def Value {β : Type} (given : List (String × Obj)) (name : String) (R : Obj → β → Prop) (none absent v : β) : Prop :=
  (∀ z, (name, z) ∈ given → if z.isNone then v = none else R z v) ∧ ((∀ z, (name, z) ∉ given) → v = absent)

/-- `z` is a number `int` can hold. -/
def IsInt (z : Obj) (i : Int) : Prop := z.int = some i ∧ -2 ^ 31 ≤ i ∧ i < 2 ^ 31

/-- `z` is a number, other than 0 if `b`. -/
def IsFlag (z : Obj) (b : Bool) : Prop := ∃ i, z.int = some i ∧ (b = true ↔ i ≠ 0)

/-- All parameters together. -/
structure Means (none absent : Opts) (given : List (String × Obj)) (o : Opts) : Prop where
  interactive : Value given "interactive" (fun z b => z.truth = some b) none.interactive absent.interactive o.interactive
  maxNoImp : Value given "max_no_improvement" IsInt none.maxNoImp absent.maxNoImp o.maxNoImp
  skipInit : Value given "skip_initialization" IsFlag none.skipInit absent.skipInit o.skipInit
  clPatience : Value given "chainlength_patience" IsInt none.clPatience absent.clPatience o.clPatience
  seed : Value given "random_seed" (fun z (n : Nat) => z.int = some (n : Int) ∧ n < 2 ^ 64) none.seed absent.seed o.seed
  tries : Value given "tries" IsInt none.tries absent.tries o.tries
  verbose : Value given "verbose" IsInt none.verbose absent.verbose o.verbose
  innerRounds : Value given "inner_rounds" IsInt none.innerRounds absent.innerRounds o.innerRounds
  timeout : Value given "timeout" (fun z d => z.float = some d) none.timeout absent.timeout o.timeout
  maxBeta : Value given "max_beta" (fun z d => z.float = some d) none.maxBeta absent.maxBeta o.maxBeta
  returnOverlap : Value given "return_overlap" IsFlag none.returnOverlap absent.returnOverlap o.returnOverlap
  maxFill : Value given "max_fill" IsInt none.maxFill absent.maxFill o.maxFill
  threads : Value given "threads" IsInt none.threads absent.threads o.threads

end Spec.Py

open Py Spec.Py
open Scratch (Cfg)

theorem Spec.Py.mem_documentedNames (s : String) : s ∈ documentedNames ↔ s ∈ Py.names := by
  simp only [documentedNames, Py.names, List.mem_cons, List.not_mem_nil, or_false]
  tauto

/-- **C107, the public function.** A call of `find_embedding` with distinct keyword arguments gets past the
parameters exactly if all names are documented and all values can be converted; each parameter then has the value
given, the documented default if it was left out, and if `None` was given the documented default too, except for
`chainlength_patience`, where `None` means 2. -/
theorem C107_public (u : Nat) (given : List (String × Obj)) (hk : (given.map Prod.fst).Nodup) (o : Opts) :
    (∃ qs, fill given = .ok qs ∧ readOpts u qs = .ok o) ↔ (∀ p ∈ given, p.1 ∈ documentedNames) ∧
      Means { documented u with clPatience := 2 } (documented u) given o := by
  constructor
  · rintro ⟨qs, hq, h⟩
    obtain ⟨_, h1, h2, h3, h4, h5, h6, h7, h8, h9, h10, h11, h12, h13⟩ := readOpts_iff.mp h
    refine ⟨fun p hp => (mem_documentedNames _).mpr ((fill_isOk given).mp ⟨qs, hq⟩ p hp), ?_⟩
    exact ⟨(fill_get hk hq (dz := .ofBool false) (by decide) toBool_iff rfl).mp h1,
      (fill_get hk hq (dz := .ofInt 10) (by decide) toCInt_iff rfl).mp h2,
      (fill_get hk hq (dz := .ofBool false) (by decide) toBint_iff rfl).mp h3,
      (fill_get hk hq (dz := .ofInt 10) (by decide) toCInt_iff rfl).mp h4,
      (fill_get hk hq (dz := .None) (by decide) toSeed_iff rfl).mp h5,
      (fill_get hk hq (dz := .ofInt 10) (by decide) toCInt_iff rfl).mp h6,
      (fill_get hk hq (dz := .ofInt 0) (by decide) toCInt_iff rfl).mp h7,
      (fill_get hk hq (dz := .None) (by decide) toCInt_iff rfl).mp h8,
      (fill_get hk hq (dz := .ofInt 1000) (by decide) toDouble_iff rfl).mp h9,
      (fill_get hk hq (dz := .None) (by decide) toDouble_iff rfl).mp h10,
      (fill_get hk hq (dz := .ofBool false) (by decide) toBint_iff rfl).mp h11,
      (fill_get hk hq (dz := .None) (by decide) toCInt_iff rfl).mp h12,
      (fill_get hk hq (dz := .ofInt 1) (by decide) toCInt_iff rfl).mp h13⟩
  · rintro ⟨hn, h⟩
    obtain ⟨qs, hq⟩ := (fill_isOk given).mpr (fun p hp => (mem_documentedNames _).mp (hn p hp))
    refine ⟨qs, hq, readOpts_iff.mpr ⟨fill_names hq, ?_⟩⟩
    exact ⟨(fill_get hk hq (dz := .ofBool false) (by decide) toBool_iff rfl).mpr h.interactive,
      (fill_get hk hq (dz := .ofInt 10) (by decide) toCInt_iff rfl).mpr h.maxNoImp,
      (fill_get hk hq (dz := .ofBool false) (by decide) toBint_iff rfl).mpr h.skipInit,
      (fill_get hk hq (dz := .ofInt 10) (by decide) toCInt_iff rfl).mpr h.clPatience,
      (fill_get hk hq (dz := .None) (by decide) toSeed_iff rfl).mpr h.seed,
      (fill_get hk hq (dz := .ofInt 10) (by decide) toCInt_iff rfl).mpr h.tries,
      (fill_get hk hq (dz := .ofInt 0) (by decide) toCInt_iff rfl).mpr h.verbose,
      (fill_get hk hq (dz := .None) (by decide) toCInt_iff rfl).mpr h.innerRounds,
      (fill_get hk hq (dz := .ofInt 1000) (by decide) toDouble_iff rfl).mpr h.timeout,
      (fill_get hk hq (dz := .None) (by decide) toDouble_iff rfl).mpr h.maxBeta,
      (fill_get hk hq (dz := .ofBool false) (by decide) toBint_iff rfl).mpr h.returnOverlap,
      (fill_get hk hq (dz := .None) (by decide) toCInt_iff rfl).mpr h.maxFill,
      (fill_get hk hq (dz := .ofInt 1) (by decide) toCInt_iff rfl).mpr h.threads⟩

/-- **C107, `miner`.** The same for the parameters of `miner(S, T, …)`, except that the `chainlength_patience` left
out means 2 as well. -/
theorem C107_miner (u : Nat) (ps : List (String × Obj)) (hk : (ps.map Prod.fst).Nodup) (o : Opts) :
    readOpts u ps = .ok o ↔ (∀ p ∈ ps, p.1 ∈ documentedNames) ∧
      Means { documented u with clPatience := 2 } { documented u with clPatience := 2 } ps o := by
  rw [readOpts_iff]
  constructor
  · rintro ⟨h0, h1, h2, h3, h4, h5, h6, h7, h8, h9, h10, h11, h12, h13⟩
    exact ⟨fun p hp => (mem_documentedNames _).mpr (h0 p hp),
      (get_iff hk toBool_iff).mp h1, (get_iff hk toCInt_iff).mp h2, (get_iff hk toBint_iff).mp h3,
      (get_iff hk toCInt_iff).mp h4, (get_iff hk toSeed_iff).mp h5, (get_iff hk toCInt_iff).mp h6,
      (get_iff hk toCInt_iff).mp h7, (get_iff hk toCInt_iff).mp h8, (get_iff hk toDouble_iff).mp h9,
      (get_iff hk toDouble_iff).mp h10, (get_iff hk toBint_iff).mp h11, (get_iff hk toCInt_iff).mp h12,
      (get_iff hk toCInt_iff).mp h13⟩
  · rintro ⟨h0, h⟩
    exact ⟨fun p hp => (mem_documentedNames _).mp (h0 p hp),
      (get_iff hk toBool_iff).mpr h.interactive, (get_iff hk toCInt_iff).mpr h.maxNoImp,
      (get_iff hk toBint_iff).mpr h.skipInit, (get_iff hk toCInt_iff).mpr h.clPatience,
      (get_iff hk toSeed_iff).mpr h.seed, (get_iff hk toCInt_iff).mpr h.tries, (get_iff hk toCInt_iff).mpr h.verbose,
      (get_iff hk toCInt_iff).mpr h.innerRounds, (get_iff hk toDouble_iff).mpr h.timeout,
      (get_iff hk toDouble_iff).mpr h.maxBeta, (get_iff hk toBint_iff).mpr h.returnOverlap,
      (get_iff hk toCInt_iff).mpr h.maxFill, (get_iff hk toCInt_iff).mpr h.threads⟩

variable {α : Type} [DecidableEq α] {pin : α → Nat → α} {sort : List (List Nat) → List (List Nat)}

/-- **C107, order.** The order of keyword arguments does not matter, not even for the exception raised. -/
theorem C107_order (V : Surroundings) (fuel : Nat) (given given' : List (String × Obj)) (hk : (given.map Prod.fst).Nodup)
    (hp : given.Perm given') (a : Args α) :
    findEmbeddingPublic pin sort V fuel given a = findEmbeddingPublic pin sort V fuel given' a ∧
    minerFind pin sort V fuel given a = minerFind pin sort V fuel given' a := by
  have hl := lookup_perm hk hp
  constructor
  · have : fill given = fill given' := by
      unfold fill
      have hs : supply given = supply given' := by
        funext nd
        unfold supply
        rw [hl]
      rw [hs]
      have ha : given.all (fun p => (signature.map Prod.fst).contains p.1) =
          given'.all (fun p => (signature.map Prod.fst).contains p.1) := by
        rw [Bool.eq_iff_iff, List.all_eq_true, List.all_eq_true]
        exact ⟨fun k p h => k p (hp.mem_iff.mpr h), fun k p h => k p (hp.mem_iff.mp h)⟩
      rw [ha]
    unfold findEmbeddingPublic
    rw [this]
  · unfold minerFind
    rw [readOpts_congr (fun p => hp.mem_iff) hl]

/-- **C107, values that do not fit.** If the keyword arguments have no meaning, an exception is raised whatever the
graphs, even for an empty source. -/
theorem C107_bad_value (V : Surroundings) (fuel : Nat) (given : List (String × Obj)) (hk : (given.map Prod.fst).Nodup) (a : Args α) :
    ((¬ ∃ o, Means { documented V.urandom with clPatience := 2 } (documented V.urandom) given o) →
      ∃ e, findEmbeddingPublic pin sort V fuel given a = .raises e) ∧
    ((¬ ∃ o, Means { documented V.urandom with clPatience := 2 } { documented V.urandom with clPatience := 2 } given o) →
      ∃ e, minerFind pin sort V fuel given a = .raises e) := by
  constructor
  · intro h
    unfold findEmbeddingPublic
    cases e : fill given with
    | error x => exact ⟨_, rfl⟩
    | ok qs =>
      dsimp only
      unfold inner
      cases e2 : readOpts V.urandom qs with
      | error x => exact ⟨_, rfl⟩
      | ok o => exact absurd ⟨o, ((C107_public V.urandom given hk o).mp ⟨qs, e, e2⟩).2⟩ h
  · intro h
    unfold minerFind
    cases e2 : readOpts V.urandom given with
    | error x => exact ⟨_, rfl⟩
    | ok o => exact absurd ⟨o, ((C107_miner V.urandom given hk o).mp e2).2⟩ h

/-- **C107, unknown names.** A name that is not documented is refused whatever the graphs, even for an empty source:
`TypeError` from the public function, `ValueError` from `miner`. -/
theorem C107_unknown_name (V : Surroundings) (fuel : Nat) (given : List (String × Obj)) (p : String × Obj) (hp : p ∈ given)
    (hn : p.1 ∉ documentedNames) (a : Args α) :
    findEmbeddingPublic pin sort V fuel given a = .raises .TypeError ∧
    minerFind pin sort V fuel given a = .raises (.lib .ValueError) := by
  constructor
  · unfold findEmbeddingPublic
    cases h : fill given with
    | ok qs => exact absurd ((mem_documentedNames _).mpr ((fill_isOk given).mp ⟨qs, h⟩ p hp)) hn
    | error e =>
      unfold fill at h
      split at h
      · cases h
      · cases h; rfl
  · unfold minerFind
    have : readOpts V.urandom given = .error .unknown := by
      unfold readOpts
      rw [if_neg]
      intro hc
      rw [List.all_eq_true] at hc
      have := hc p hp
      rw [List.contains_iff_mem] at this
      exact hn ((mem_documentedNames _).mpr this)
    rw [this]
    rfl

/-- **C107, seeds.** With a seed that is not `None` nothing depends on `os.urandom`. -/
theorem C107_seed (V : Surroundings) (u : Nat) (fuel : Nat) (given : List (String × Obj)) (hk : (given.map Prod.fst).Nodup)
    (z : Obj) (hz : ("random_seed", z) ∈ given) (hn : z.isNone = false) (a : Args α) :
    findEmbeddingPublic pin sort V fuel given a = findEmbeddingPublic pin sort { V with urandom := u } fuel given a ∧
    minerFind pin sort V fuel given a = minerFind pin sort { V with urandom := u } fuel given a := by
  have hl := (lookup_eq_some hk).mpr hz
  constructor
  · unfold findEmbeddingPublic
    cases h : fill given with
    | error e => rfl
    | ok qs =>
      dsimp only
      have hq : readOpts V.urandom qs = readOpts u qs := by
        have hg : get qs "random_seed" toSeed V.urandom = get qs "random_seed" toSeed u := by
          rw [fill_ok h (dz := .None) (by decide), fill_ok h (dz := .None) (by decide), hl]
          simp [hn]
        unfold readOpts
        rw [hg]
      unfold inner
      rw [hq]
      rfl
  · unfold minerFind
    rw [readOpts_seed hl hn (u' := u)]
    rfl

/-- The counts are not negative. -/
def Py.Opts.Natural (o : Opts) : Prop := 0 ≤ o.tries ∧ 0 ≤ o.innerRounds ∧ 0 ≤ o.maxNoImp ∧ 0 ≤ o.clPatience

/-- **C107, the parameters reach the search.** A call of the public function with keyword arguments of given
meaning, counts that are not negative, `verbose` below 4 and a timeout that can be represented is a search with these
parameters: this many tries and so on, `return_overlap`, the seed, the weights for `max_beta` and `max_fill`, several
threads if `threads` is above 1, stopping when the clock shows `stop`. -/
theorem C107_search (hs : SortOK sort) (V : Surroundings) (given : List (String × Obj)) (hk : (given.map Prod.fst).Nodup) (o : Opts)
    (hn : ∀ p ∈ given, p.1 ∈ documentedNames)
    (ho : Means { documented V.urandom with clPatience := 2 } (documented V.urandom) given o) (hc : o.Natural)
    (hv : o.verbose < 4) (stop : Int) (hstop : stopTime V.now o.timeout = .ok stop) (a : Args α) (hA : a.OK)
    (hr : a.restr = []) (P : Parsed α) (hp : a.parse pin = .ok P) (hsize : P.S.L.label.length < 2 ^ 29) :
    ∃ f0 : Nat, ∀ fuel : Nat, f0 ≤ fuel → findEmbeddingPublic pin sort V fuel given a =
      outcome (call pin sort ⟨V.weight P.input o.maxBeta, decide (1 < o.threads)⟩
        { tries := o.tries.toNat, innerRounds := o.innerRounds.toNat, maxNoImp := o.maxNoImp.toNat
          clPatience := o.clPatience.toNat, skipInit := o.skipInit, interactive := o.interactive, restricted := false
          bound := V.bound P.input o.maxFill, stops := fun n => (V.interrupt n, decide (stop ≤ V.clock n)) }
        o.returnOverlap a (V.tape o.seed)) := by
  obtain ⟨qs, hq, hqs⟩ := (C107_public V.urandom given hk o).mpr ⟨hn, ho⟩
  obtain ⟨hI, hre⟩ := parse_ok hp hA
  have hcomp := Input.compatible_of_nil (hre hr)
  obtain ⟨_, _, h2, _, h4, _, h6, _, h8, _, _, _, _, _⟩ := readOpts_iff.mp hqs
  have bd : ∀ {name : String} {d v : Int}, get qs name toCInt d = .ok v → d < 2 ^ 31 → v < 2 ^ 31 := by
    intro name d v h hd
    unfold Py.get at h
    cases hl : qs.lookup name with
    | none => rw [hl] at h; cases h; exact hd
    | some z =>
      rw [hl] at h
      dsimp only at h
      split at h
      · cases h; exact hd
      · exact ((toCInt_iff _ _).mp h).2.2
  have b2 := bd h2 (by decide)
  have b4 := bd h4 (by decide)
  have b6 := bd h6 (by decide)
  have b8 := bd h8 (by decide)
  obtain ⟨c1, c2, c3, c4⟩ := hc
  have hn29 : P.input.src.n < 2 ^ 29 := by
    obtain ⟨S0, T0, isoS, isoT, fx, g1, g2, g3, g4, g5, g6, g7, g8⟩ := (parse_spec hp hA.fkeys).ex
    have X : Ctx pin a P S0 T0 isoS isoT fx := ⟨g1, g2, g3, g4, g5, g6, g7, g8⟩
    have : P.input.src.n = P.S.L.label.length := X.inv.S.n
    omega
  obtain ⟨f0, hf⟩ := C106_nonnegative hs hI hcomp hn29 (o.cfg V P.input) (o.params V stop P.input)
    (by show o.tries.toNat < 2 ^ 31; omega) (by show o.innerRounds.toNat < 2 ^ 31; omega)
    (by show o.maxNoImp.toNat < 2 ^ 31; omega) (by show o.clPatience.toNat < 2 ^ 31; omega) o.returnOverlap (V.tape o.seed)
  refine ⟨f0, fun fuel hfu => ?_⟩
  have hcounts : o.counts = ⟨((o.params V stop P.input).tries : Int), ((o.params V stop P.input).innerRounds : Int),
      ((o.params V stop P.input).maxNoImp : Int), ((o.params V stop P.input).clPatience : Int)⟩ := by
    show Counts.mk _ _ _ _ = Counts.mk (o.tries.toNat : Int) (o.innerRounds.toNat : Int) (o.maxNoImp.toNat : Int) (o.clPatience.toNat : Int)
    rw [Int.toNat_of_nonneg c1, Int.toNat_of_nonneg c2, Int.toNat_of_nonneg c3, Int.toNat_of_nonneg c4]
  have hsearch : o.search sort V fuel P.input =
      findEmbedding sort (o.cfg V P.input) (o.params V stop P.input) o.returnOverlap P.input (V.tape o.seed) := by
    unfold Opts.search
    cases hpr : P.input.process sort with
    | error e =>
      have : findEmbedding sort (o.cfg V P.input) (o.params V stop P.input) o.returnOverlap P.input (V.tape o.seed) = .error e := by
        unfold findEmbedding
        rw [hpr]
        simp only [bind, Except.bind]
      rw [this]
      cases e <;> first | rfl | (dsimp only; rw [if_neg (by omega)])
    | ok p =>
      dsimp only
      rw [if_neg (by omega), hstop]
      dsimp only
      rw [hcounts]
      exact hf fuel hfu
  unfold findEmbeddingPublic
  rw [hq]
  dsimp only
  unfold inner
  rw [hqs]
  dsimp only
  rw [hp]
  dsimp only
  rw [call_eq_answer hp]
  exact congrArg (fun m => outcome (answer P o.returnOverlap m)) hsearch

/-- **C107, `verbose`.** Contrary to the documentation, which describes level 4, `verbose` of 4 or more makes
`find_embedding` raise `ValueError` for all readable arguments with a source graph that is not empty; `miner` ends the
process. -/
theorem C107_verbose_fails (hs : SortOK sort) (V : Surroundings) (fuel : Nat) (given : List (String × Obj))
    (hk : (given.map Prod.fst).Nodup) (o o' : Opts) (hn : ∀ p ∈ given, p.1 ∈ documentedNames)
    (ho : Means { documented V.urandom with clPatience := 2 } (documented V.urandom) given o)
    (ho' : Means { documented V.urandom with clPatience := 2 } { documented V.urandom with clPatience := 2 } given o')
    (hv : 4 ≤ o.verbose) (hv' : 4 ≤ o'.verbose) (a : Args α) (hA : a.OK) (P : Parsed α) (hp : a.parse pin = .ok P) :
    findEmbeddingPublic pin sort V fuel given a = .raises (.lib .ValueError) ∧
    minerFind pin sort V fuel given a = .dies := by
  obtain ⟨hI, _⟩ := parse_ok hp hA
  have hpr := process_spec hs hI
  constructor
  · obtain ⟨qs, hq, hqs⟩ := (C107_public V.urandom given hk o).mpr ⟨hn, ho⟩
    have : o.search sort V fuel P.input = .error .corrupt := by
      unfold Opts.search
      rcases hpr with ⟨p, hp, _⟩ | h | h
      · rw [hp]; dsimp only; rw [if_pos hv]
      · rw [h]
      · rw [h]; dsimp only; rw [if_pos hv]
    unfold findEmbeddingPublic
    rw [hq]
    dsimp only
    unfold inner
    rw [hqs]
    dsimp only
    rw [hp]
    dsimp only
    rw [this]
    rfl
  · unfold minerFind
    rw [(C107_miner V.urandom given hk o').mpr ⟨hn, ho'⟩]
    dsimp only
    rw [hp]
    dsimp only
    rcases hpr with ⟨p, hp, _⟩ | h | h
    · rw [hp]; dsimp only; rw [if_pos hv']
    · rw [h]
    · rw [h]

theorem Py.outcome_returns {x : Except PyErr (Result α)} {r : Result α} (h : outcome x = .returns r) (hr : r.Success) :
    x = .ok r := by
  rcases x with e | r'
  · exfalso
    have hno : ¬ (Result.Success (α := α) { dict := [], flag := none }) := by
      rintro (h | ⟨_, h⟩)
      · cases h
      · exact h rfl
    unfold outcome at h
    cases e with
    | emptySource => cases h; exact hno hr
    | value => cases h
    | runtime => cases h
    | index => cases h
    | core f => cases f <;> cases h
  · cases h; rfl

/-- **C107, validity.** If such a call reports success, its dict is a minor embedding. -/
theorem C107_success_is_minor_embedding (hs : SortOK sort) (V : Surroundings) (given : List (String × Obj))
    (hk : (given.map Prod.fst).Nodup) (o : Opts) (hn : ∀ p ∈ given, p.1 ∈ documentedNames)
    (ho : Means { documented V.urandom with clPatience := 2 } (documented V.urandom) given o) (hc : o.Natural)
    (hv : o.verbose < 4) (stop : Int) (hstop : stopTime V.now o.timeout = .ok stop) (a : Args α) (hA : a.OK)
    (hr : a.restr = []) (P : Parsed α) (hp : a.parse pin = .ok P) (hsize : P.S.L.label.length < 2 ^ 29) :
    ∃ f0 : Nat, ∀ fuel : Nat, f0 ≤ fuel → ∀ r, findEmbeddingPublic pin sort V fuel given a = .returns r → r.Success →
      MinorUpTo a.Fix a.src a.tgt r.chain := by
  obtain ⟨f0, hf⟩ := C107_search hs V given hk o hn ho hc hv stop hstop a hA hr P hp hsize
  refine ⟨f0, fun fuel hfu r h hrs => ?_⟩
  rw [hf fuel hfu] at h
  exact C01_dict_is_minor_embedding hs a hA hr _ _ _ _ r (outcome_returns h hrs) hrs

/-! ### Concrete calls -/

namespace Demo

/-- Draws that depend on the seed, a clock that stands still. -/
def env : Surroundings where
  urandom := 12
  tape := fun seed k => k * k * seed % 101
  now := 5
  clock := fun _ => 5
  interrupt := fun _ => false
  weight := fun _ _ => cfg.weight
  bound := fun _ _ => 63

/-- A triangle into a square and a cycle of five with a common edge. -/
def loops : Args Nat :=
  { srcE := [(0, 1), (1, 2), (2, 0)], srcN := none
    tgtE := [(0, 1), (1, 2), (2, 3), (3, 0), (3, 4), (4, 5), (5, 6), (6, 0)], tgtN := none
    fixed := [], initial := [], restr := [], suspend := [] }

/-- Pins are large numbers. -/
def pin9 : Nat → Nat → Nat := fun v i => 1000 + 10 * v + i

/-- The dict of a call that returns. -/
def dictOf {α : Type} : Ending α → Option (List (α × List α) × Option Bool)
  | .returns r => some (r.dict, r.flag)
  | _ => none

end Demo

/-- **C107 fails: `miner` and `find_embedding` differ.** According to the documentation `miner(S, T, **params)` with
`find_embedding()` does the same as `find_embedding(S, T, **params)`. Here, for the same seed, the first gives an embedding
that uses five nodes of the target and the second one that uses four. -/
theorem C107_miner_is_not_equivalent :
    Demo.dictOf (minerFind Demo.pin9 Demo.sortBySize Demo.env 20 [("random_seed", .ofInt 3)] Demo.loops) =
      some ([(0, [3, 0]), (1, [4]), (2, [5, 6])], none) ∧
    Demo.dictOf (findEmbeddingPublic Demo.pin9 Demo.sortBySize Demo.env 20 [("random_seed", .ofInt 3)] Demo.loops) =
      some ([(0, [1, 0]), (1, [3]), (2, [2])], none) := by
  decide +kernel

namespace Demo

/-- The exception of a call that raises one. -/
def raisedBy {α : Type} : Ending α → Option Raised
  | .raises e => some e
  | _ => none

/-- The user presses Ctrl-C before the third look at the clock. -/
def ctrlC : Surroundings := { env with interrupt := fun n => decide (n = 2) }

theorem loops_parse : ∃ P, loops.parse pin9 = .ok P ∧ P.S.L.label.length < 2 ^ 29 := by
  have h : (loops.parse pin9).toOption.map (fun P => P.S.L.label.length) = some 3 := by decide +kernel
  cases hp : loops.parse pin9 with
  | error e => rw [hp] at h; cases h
  | ok P =>
    rw [hp] at h
    have : P.S.L.label.length = 3 := by simpa [Except.toOption] using h
    exact ⟨P, rfl, by omega⟩

theorem loops_ok : loops.OK where
  fkeys := by decide
  ikeys := by decide
  rkeys := by decide
  fdisj := by decide
  ifree := by decide
  iavoid := by decide

/-- Three tries, no patience. -/
def few : List (String × Obj) := [("tries", .ofInt 3), ("chainlength_patience", .None), ("random_seed", .ofInt 7)]

theorem few_means : Means { documented 12 with clPatience := 2 } (documented 12) few
    { documented 7 with tries := 3, clPatience := 2 } :=
  ((C107_public 12 few (by decide) _).mp ⟨_, rfl, by decide +kernel⟩).2

/-- A talkative call. -/
def loud : List (String × Obj) := [("verbose", .ofInt 4)]

theorem loud_means : Means { documented 12 with clPatience := 2 } (documented 12) loud { documented 12 with verbose := 4 } :=
  ((C107_public 12 loud (by decide) _).mp ⟨_, rfl, by decide +kernel⟩).2

theorem loud_means' : Means { documented 12 with clPatience := 2 } { documented 12 with clPatience := 2 } loud
    { documented 12 with verbose := 4, clPatience := 2 } :=
  ((C107_miner 12 loud (by decide) _).mp (by decide +kernel)).2

end Demo

/-- **C107 fails: interrupts.** According to the documentation an interrupted call returns the best embedding found so
far, and does so if `interactive` is false. Here it raises `KeyboardInterrupt`, and returns with `interactive=True`. -/
theorem C107_interrupt_is_inverted :
    Demo.raisedBy (findEmbeddingPublic Demo.pin9 Demo.sortBySize Demo.ctrlC 20 [("random_seed", .ofInt 3)] Demo.loops) =
      some (.lib .KeyboardInterrupt) ∧
    Demo.dictOf (findEmbeddingPublic Demo.pin9 Demo.sortBySize Demo.ctrlC 20
      [("random_seed", .ofInt 3), ("interactive", .ofBool true)] Demo.loops) =
      some ([(0, [0, 3]), (1, [4]), (2, [6, 5])], none) := by
  decide +kernel

example : ∃ f0 : Nat, ∀ fuel : Nat, f0 ≤ fuel → ∀ r,
    findEmbeddingPublic Demo.pin9 Demo.sortBySize Demo.env fuel Demo.few Demo.loops = .returns r → r.Success →
      MinorUpTo Demo.loops.Fix Demo.loops.src Demo.loops.tgt r.chain := by
  obtain ⟨P, hp, hn⟩ := Demo.loops_parse
  exact C107_success_is_minor_embedding Demo.sortOK Demo.env Demo.few (by decide) _ (by decide) Demo.few_means
    ⟨by decide, by decide, by decide, by decide⟩ (by decide) 1000000000005 (by decide +kernel) Demo.loops Demo.loops_ok rfl P hp hn

example (fuel : Nat) : findEmbeddingPublic Demo.pin9 Demo.sortBySize Demo.env fuel Demo.loud Demo.loops = .raises (.lib .ValueError) ∧
    minerFind Demo.pin9 Demo.sortBySize Demo.env fuel Demo.loud Demo.loops = .dies := by
  obtain ⟨P, hp, hn⟩ := Demo.loops_parse
  exact C107_verbose_fails Demo.sortOK Demo.env fuel Demo.loud (by decide) _ _ (by decide) Demo.loud_means Demo.loud_means'
    (by decide) (by decide) Demo.loops Demo.loops_ok P hp

example (fuel : Nat) (a : Args Nat) : findEmbeddingPublic Demo.pin9 Demo.sortBySize Demo.env fuel [("trys", .ofInt 3)] a = .raises .TypeError :=
  (C107_unknown_name Demo.env fuel _ ("trys", .ofInt 3) (by decide) (by decide) a).1

example (fuel : Nat) : findEmbeddingPublic Demo.pin9 Demo.sortBySize Demo.env fuel Demo.few Demo.loops =
    findEmbeddingPublic Demo.pin9 Demo.sortBySize Demo.env fuel Demo.few.reverse Demo.loops :=
  (C107_order Demo.env fuel Demo.few _ (by decide) (List.reverse_perm _).symm Demo.loops).1

example (fuel : Nat) : findEmbeddingPublic Demo.pin9 Demo.sortBySize Demo.env fuel Demo.few Demo.loops =
    findEmbeddingPublic Demo.pin9 Demo.sortBySize { Demo.env with urandom := 99 } fuel Demo.few Demo.loops :=
  (C107_seed Demo.env 99 fuel Demo.few (by decide) (.ofInt 7) (by decide) rfl Demo.loops).1

/-- Numbers out of range and objects that are no numbers are refused. -/
example : (readOpts 12 [("tries", .ofInt (2 ^ 31))]) = .error .overflow ∧ (readOpts 12 [("random_seed", .ofInt (-1))]) = .error .overflow ∧
    (readOpts 12 [("threads", .unit)]) = .error .conversion := by
  decide +kernel

/-- Such a call meets the hypothesis of `C107_bad_value`. -/
example (fuel : Nat) (a : Args Nat) : ∃ e, findEmbeddingPublic Demo.pin9 Demo.sortBySize Demo.env fuel [("tries", .ofInt (2 ^ 31))] a = .raises e := by
  refine (C107_bad_value Demo.env fuel _ (by decide) a).1 fun ⟨o, ho⟩ => ?_
  obtain ⟨qs, h1, h2⟩ := (C107_public Demo.env.urandom [("tries", .ofInt (2 ^ 31))] (by decide) o).mpr ⟨by decide, ho⟩
  have : ∀ qs, fill [("tries", .ofInt (2 ^ 31))] = .ok qs → readOpts Demo.env.urandom qs = .error .overflow := by
    intro qs h
    cases h
    decide +kernel
  rw [this qs h1] at h2
  cases h2

end MM
