import Verif.Py.RenameInv
import Verif.Props.Options

/-! C117: what the outcome of a call does not depend on. -/

namespace MM

namespace Spec.Py

open MM.Py (Surroundings stopTime Dbl Args)

/-- Nothing stops the search: no interrupts, and the clock never shows the time `timeout` after the start. -/
def Unstopped (V : Surroundings) (timeout : Dbl) : Prop :=
  (∀ n, V.interrupt n = false) ∧ ∃ stop, stopTime V.now timeout = .ok stop ∧ ∀ n, V.clock n < stop

/-- The same library: the same generator of random numbers, weights and bounds. Clock, interrupts and the random bytes of the
system may differ. -/
def SameLibrary (V V' : Surroundings) : Prop := V'.tape = V.tape ∧ V'.weight = V.weight ∧ V'.bound = V.bound

/-- The same graphs and chains, with the items of the dicts in any order. -/
structure SameItems {α : Type} (a b : Args α) : Prop where
  srcE : b.srcE = a.srcE
  srcN : b.srcN = a.srcN
  tgtE : b.tgtE = a.tgtE
  tgtN : b.tgtN = a.tgtN
  suspend : b.suspend = a.suspend
  fixed : a.fixed.Perm b.fixed
  initial : a.initial.Perm b.initial
  restr : a.restr.Perm b.restr

end Spec.Py

open Py Spec.Py

variable {α β : Type} [DecidableEq α] [DecidableEq β] {pin : α → Nat → α} {pin' : β → Nat → β} {sort : List (List Nat) → List (List Nat)}

/-- **C117, names.** With other names for the nodes, the same in the same order otherwise, the same call ends in the same way
with the renamed embedding. Only that different nodes have different names counts, not what the names are: they need not
even be of the same type. The labels that stand for pins, if there are any, are renamed in both graphs alike. -/
theorem C117_renaming {f g : α → β} (hf : Function.Injective f) (hg : Function.Injective g) (V : Surroundings) (fuel : Nat)
    (given : List (String × Obj)) (a : Args α) (hpin : ∀ vb ∈ a.suspend, ∀ i, pin' (f vb.1) i = f (pin vb.1 i) ∧ f (pin vb.1 i) = g (pin vb.1 i)) :
    findEmbeddingPublic pin' sort V fuel given (a.rename f g) = (findEmbeddingPublic pin sort V fuel given a).rename f g ∧
    minerFind pin' sort V fuel given (a.rename f g) = (minerFind pin sort V fuel given a).rename f g := by
  have hP := parse_ren hf hg (pin := pin) (pin' := pin') a (fun vb h i => (hpin vb h i).1) (fun vb h i => (hpin vb h i).2)
  constructor
  · unfold findEmbeddingPublic
    cases fill given with
    | error e => rfl
    | ok ps =>
      dsimp only
      unfold inner
      cases readOpts V.urandom ps with
      | error e => rfl
      | ok o =>
        dsimp only
        rcases hP with ⟨e, e1, e2⟩ | ⟨P, P', e1, e2, h⟩
        · rw [e1, e2]
          exact outcome_ren (.inl ⟨e, rfl, rfl⟩)
        · rw [e1, e2]
          dsimp only
          rw [h.input]
          exact outcome_ren (answer_ren h _ _)
  · unfold minerFind
    cases readOpts V.urandom given with
    | error e => rfl
    | ok o =>
      dsimp only
      rcases hP with ⟨e, e1, e2⟩ | ⟨P, P', e1, e2, h⟩
      · rw [e1, e2]
        cases e with
        | emptySource => rfl
        | core k => cases k <;> rfl
        | _ => rfl
      · rw [e1, e2]
        dsimp only
        rw [h.input]
        cases P.input.process sort with
        | error e => cases e <;> rfl
        | ok r =>
          dsimp only
          split
          · rfl
          · exact outcome_ren (answer_ren h _ _)

/-- **C117, items of dicts.** The order of the items of `fixed_chains`, `initial_chains` and `restrict_chains` does not
matter. -/
theorem C117_items (V : Surroundings) (fuel : Nat) (given : List (String × Obj)) {a b : Args α} (h : SameItems a b)
    (kf : (a.fixed.map Prod.fst).Nodup) (ki : (a.initial.map Prod.fst).Nodup) (kr : (a.restr.map Prod.fst).Nodup) :
    findEmbeddingPublic pin sort V fuel given b = findEmbeddingPublic pin sort V fuel given a ∧
    minerFind pin sort V fuel given b = minerFind pin sort V fuel given a := by
  have hp : b.parse pin = a.parse pin := by
    obtain ⟨_, hS, -, -⟩ := LGraph.read_spec a.srcE a.srcN
    have hb : b.blobs pin = a.blobs pin := by unfold Args.blobs; rw [h.suspend]
    unfold Args.parse
    dsimp only
    rw [h.srcE, h.srcN, h.tgtE, h.tgtN, hb, chainmap_perm hS.wf _ h.fixed kf, chainmap_perm hS.wf _ h.initial ki,
      chainmap_perm hS.wf _ h.restr kr]
  constructor
  · unfold findEmbeddingPublic inner; rw [hp]
  · unfold minerFind; rw [hp]

theorem search_unstopped {V V' : Surroundings} (hl : SameLibrary V V') (o : Opts) (h : Unstopped V o.timeout) (h' : Unstopped V' o.timeout) (fuel : Nat)
    (I : Input) : o.search sort V' fuel I = o.search sort V fuel I := by
  obtain ⟨h1, s, h2, h3⟩ := h
  obtain ⟨h1', s', h2', h3'⟩ := h'
  obtain ⟨l1, l2, l3⟩ := hl
  have hp : o.params V' s' I = o.params V s I := by
    unfold Opts.params
    rw [l3]
    congr 1
    funext n
    rw [h1, h1', decide_eq_false (not_le.mpr (h3' n)), decide_eq_false (not_le.mpr (h3 n))]
  have hc : o.cfg V' I = o.cfg V I := by unfold Opts.cfg; rw [l2]
  unfold Opts.search
  rw [h2, h2']
  dsimp only
  rw [hp, hc, l1]

/-- **C117, the seed decides.** Two calls with the same arguments and the same `random_seed`, neither of them stopped by an
interrupt or the timeout, end in the same way with the same embedding: neither the time of day, nor how fast the machine is, nor
the random numbers of the system count. -/
theorem C117_repeat {V V' : Surroundings} (hl : SameLibrary V V') (fuel : Nat) (given : List (String × Obj)) (hk : (given.map Prod.fst).Nodup)
    (z : Obj) (hz : ("random_seed", z) ∈ given) (hn : z.isNone = false) (o : Opts) (hd : ∀ p ∈ given, p.1 ∈ documentedNames)
    (ho : Means { documented V.urandom with clPatience := 2 } (documented V.urandom) given o)
    (h : Unstopped V o.timeout) (h' : Unstopped V' o.timeout) (a : Args α) :
    findEmbeddingPublic pin sort V' fuel given a = findEmbeddingPublic pin sort V fuel given a := by
  rw [(C107_seed V' V.urandom fuel given hk z hz hn a).1]
  obtain ⟨qs, h1, h2⟩ := (C107_public V.urandom given hk o).mpr ⟨hd, ho⟩
  unfold findEmbeddingPublic
  rw [h1]
  dsimp only
  unfold inner
  dsimp only
  rw [h2]
  dsimp only
  cases a.parse pin with
  | error e => rfl
  | ok P =>
    dsimp only
    rw [search_unstopped (V := V) (V' := { V' with urandom := V.urandom }) hl o h h']

/-- **C117, the seed decides, for a `miner`.** -/
theorem C117_repeat_miner {V V' : Surroundings} (hl : SameLibrary V V') (fuel : Nat) (ps : List (String × Obj)) (hk : (ps.map Prod.fst).Nodup)
    (z : Obj) (hz : ("random_seed", z) ∈ ps) (hn : z.isNone = false) (o : Opts) (hd : ∀ p ∈ ps, p.1 ∈ documentedNames)
    (ho : Means { documented V.urandom with clPatience := 2 } { documented V.urandom with clPatience := 2 } ps o)
    (h : Unstopped V o.timeout) (h' : Unstopped V' o.timeout) (a : Args α) :
    minerFind pin sort V' fuel ps a = minerFind pin sort V fuel ps a := by
  rw [(C107_seed V' V.urandom fuel ps hk z hz hn a).2]
  have h2 := (C107_miner V.urandom ps hk o).mpr ⟨hd, ho⟩
  unfold minerFind
  dsimp only
  rw [h2]
  dsimp only
  cases a.parse pin with
  | error e => cases e <;> rfl
  | ok P =>
    dsimp only
    rw [search_unstopped (V := V) (V' := { V' with urandom := V.urandom }) hl o h h']

namespace Renamed

open Demo (env pin9 sortBySize loops dictOf few)

/-- A triangle with a chain for one node and another suspended from a node of the target. -/
def pinned : Args Nat := { loops with fixed := [(0, [0])], initial := [(1, [1]), (2, [3])], suspend := [(1, [[2]])] }

/-- Source nodes become pairs with 0, target nodes pairs with 1, pins pairs with 2. -/
def src (n : Nat) : Nat × Nat := if n < 1000 then (n, 0) else (n, 2)
def tgt (n : Nat) : Nat × Nat := if n < 1000 then (n, 1) else (n, 2)
def pin2 (v : Nat × Nat) (i : Nat) : Nat × Nat := (pin9 v.1 i, 2)

theorem src_inj : Function.Injective src := by
  intro a b h
  unfold src at h
  split at h <;> split at h <;> simp_all

theorem tgt_inj : Function.Injective tgt := by
  intro a b h
  unfold tgt at h
  split at h <;> split at h <;> simp_all

/-- A day later, on another machine. -/
def later : Surroundings := { env with urandom := 77, now := 10 ^ 14, clock := fun n => 10 ^ 14 + 1000 * (n % 1000000) }

theorem few_means' : Means { documented 12 with clPatience := 2 } { documented 12 with clPatience := 2 } few
    { documented 7 with tries := 3, clPatience := 2 } :=
  ((C107_miner 12 few (by decide) _).mp (by decide +kernel)).2

theorem calm : Unstopped env (.num 1000) ∧ Unstopped later (.num 1000) :=
  ⟨⟨fun _ => rfl, 1000000000005, by decide +kernel, fun _ => by show (5 : Int) < _; omega⟩,
    ⟨fun _ => rfl, 10 ^ 14 + 10 ^ 12, by decide +kernel, fun n => by
      show (10 : Int) ^ 14 + 1000 * ((n % 1000000 : Nat) : Int) < 10 ^ 14 + 10 ^ 12
      omega⟩⟩

end Renamed

open Demo Renamed

/-- A call with fixed, initial and suspended chains, and the same call with pairs for names. -/
example (fuel : Nat) :
    findEmbeddingPublic pin2 sortBySize env fuel few (pinned.rename src tgt) = (findEmbeddingPublic pin9 sortBySize env fuel few pinned).rename src tgt :=
  (C117_renaming src_inj tgt_inj env fuel few pinned (fun vb h i => by
    rw [List.mem_singleton.mp h]
    have h1 : ¬ pin9 1 i < 1000 := by unfold pin9; omega
    have h2 : src (pin9 1 i) = (pin9 1 i, 2) := if_neg h1
    have h3 : tgt (pin9 1 i) = (pin9 1 i, 2) := if_neg h1
    exact ⟨h2.symm, h2.trans h3.symm⟩)).1

/-- It returns an embedding. -/
example : dictOf (findEmbeddingPublic pin9 sortBySize env 20 few pinned) = some ([(0, [0]), (1, [2, 1]), (2, [3])], none) ∧
    dictOf (findEmbeddingPublic pin2 sortBySize env 20 few (pinned.rename src tgt)) =
      some ([((0, 0), [(0, 1)]), ((1, 0), [(2, 1), (1, 1)]), ((2, 0), [(3, 1)])], none) := by
  decide +kernel

/-- The initial chains in the other order. -/
example (fuel : Nat) : findEmbeddingPublic pin9 sortBySize env fuel few { pinned with initial := [(2, [3]), (1, [1])] } =
    findEmbeddingPublic pin9 sortBySize env fuel few pinned :=
  (C117_items (a := pinned) (b := { pinned with initial := [(2, [3]), (1, [1])] }) env fuel few ⟨rfl, rfl, rfl, rfl, rfl, .refl _, .swap _ _ _, .refl _⟩ (by decide) (by decide) (by decide)).1

/-- A day later the same call gives the same. -/
example (fuel : Nat) : findEmbeddingPublic pin9 sortBySize later fuel few pinned = findEmbeddingPublic pin9 sortBySize env fuel few pinned ∧
    minerFind pin9 sortBySize later fuel few pinned = minerFind pin9 sortBySize env fuel few pinned :=
  ⟨C117_repeat (V := env) (V' := later) ⟨rfl, rfl, rfl⟩ fuel few (by decide) (.ofInt 7) (by decide) rfl _ (by decide) few_means calm.1 calm.2 pinned,
    C117_repeat_miner (V := env) (V' := later) ⟨rfl, rfl, rfl⟩ fuel few (by decide) (.ofInt 7) (by decide) rfl _ (by decide) few_means' calm.1 calm.2 pinned⟩

/-- **C117, what counts: the order of the edges.** The same triangle with its edges listed backwards gets another embedding for
the same seed: nodes are numbered in the order in which they are first named. -/
theorem C117_order_of_edges_counts :
    dictOf (findEmbeddingPublic pin9 sortBySize env 20 [("random_seed", .ofInt 7)] loops) = some ([(0, [0]), (1, [1]), (2, [3, 2])], none) ∧
    dictOf (findEmbeddingPublic pin9 sortBySize env 20 [("random_seed", .ofInt 7)] { loops with srcE := loops.srcE.reverse }) =
      some ([(2, [0]), (0, [1]), (1, [3, 2])], none) := by
  decide +kernel

end MM
