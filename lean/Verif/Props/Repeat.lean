import Verif.Bus.MaskOnly
import Verif.Bus.Few
import Verif.Cache.Entry
import Verif.Props.Serial
import Verif.Props.Wrapper

/-! C116: whether the same call of `find_clique_embedding` gives the same answer. C49: the single-qubit cliques found are the largest ones. -/

namespace MM

open Bus Lattice Spec Disk

/-- C49, for the graphs of the three families: the clique of single qubits that `short_clique` finds is a largest clique of the graph, whatever its size. -/
theorem C49_largest {T : Topo} {nodes : List Nat} {edges : List (Nat × Nat)} (hG : WFGraph T nodes edges) :
    CliqueEmbedding nodes edges (shortClique T.cliqueNumber nodes edges) ∧ (∀ c ∈ shortClique T.cliqueNumber nodes edges, c.length = 1) ∧
      ∀ vs, IsClique nodes edges vs → vs.length ≤ (shortClique T.cliqueNumber nodes edges).length := by
  have hcn : 2 ≤ T.cliqueNumber ∧ T.cliqueNumber ≤ 4 := by cases T <;> simp [Topo.cliqueNumber]
  obtain ⟨h1, h2, h3⟩ := C49_short hG.ends hG.loopless hcn.1 hcn.2
  exact ⟨h1, h2, fun vs hv => h3 vs hv (isClique_le hG hv)⟩

/-- No five qubits of a Pegasus or Zephyr graph are mutually coupled, and no three of a Chimera graph. -/
theorem C49_number {T : Topo} {nodes : List Nat} {edges : List (Nat × Nat)} (hG : WFGraph T nodes edges) {vs : List Nat} (hv : IsClique nodes edges vs) : vs.length ≤ if T.family = .chimera then 2 else 4 := by
  have := isClique_le hG hv
  cases T <;> simpa [Topo.cliqueNumber, Topo.family] using this

namespace Bus

section
variable {T : Topo} {nodes nodes' : List Nat} {edges edges' : List (Nat × Nat)} {D D' E E' : Draws} {M : Masks} {α : Type}

theorem singles_clique {e : List (List Nat)} (h : Entry nodes edges 1 e) : ∃ vs, IsClique nodes edges vs ∧ vs.length = e.length := by
  have hone : ∀ c ∈ e, ∃ v, c = [v] := by
    intro c hc
    have h1 := h.le c hc
    have h2 := (h.clique.chains c hc).nonempty
    match c, h1, h2 with
    | [v], _, _ => exact ⟨v, rfl⟩
  have key : ∀ e : List (List Nat), (∀ c ∈ e, ∃ v, c = [v]) → ∃ vs : List Nat, e = vs.map fun v => [v] := by
    intro e
    induction e with
    | nil => intro _; exact ⟨[], rfl⟩
    | cons c e ih =>
      intro h
      rw [List.forall_mem_cons] at h
      obtain ⟨v, rfl⟩ := h.1
      obtain ⟨vs, rfl⟩ := ih h.2
      exact ⟨v :: vs, rfl⟩
  obtain ⟨vs, rfl⟩ := key e hone
  refine ⟨vs, ⟨fun v hv => ?_, ?_⟩, by rw [List.length_map]⟩
  · exact (h.clique.chains [v] (List.mem_map.mpr ⟨v, hv, rfl⟩)).qubits v (List.mem_singleton.mpr rfl)
  · have h1 := (List.pairwise_map.mp h.clique.disjoint).and (List.pairwise_map.mp h.clique.adjacent)
    refine h1.imp fun {p q} h => ⟨?_, ?_⟩
    · rintro rfl
      exact h.1 p (List.mem_singleton.mpr rfl) (List.mem_singleton.mpr rfl)
    · obtain ⟨a, ha, b, hb, hc⟩ := h.2
      rw [List.mem_singleton] at ha hb
      subst ha hb
      exact hc

theorem entry_one_lt (hG : WFGraph T nodes edges) (hD : D.Perm) (hD' : D'.Perm) {r : List (List (List Nat))} (hr : bestCliques T 64 D D' nodes edges = .ok r) {e : List (List Nat)} (he : r[1]? = some e) : e.length ≤ T.cliqueNumber := by
  obtain ⟨_, r', _, _, h1, h2, _⟩ := bestCliques_ok hG (bound := 64) (by decide) hD hD'
  rw [hr] at h1; cases h1
  obtain ⟨vs, hv, hl⟩ := singles_clique (h2 1 e he)
  rw [← hl]
  exact isClique_le hG hv

theorem findUncached_few {S : Sorting} {fuel : Nat} {L : List (Nat × Nat)} (hM : buildMasks T nodes edges = .ok M) (hL : badEdges T M.bad = .ok L) (h : 2 ^ L.length ≤ 64) (labels : List α) :
    findUncached S fuel T 64 D D' nodes edges labels = findUncached S fuel T 64 E E' nodes edges labels := by
  unfold findUncached findClique
  rw [searched_undrawn (E := E) (E' := E') hM hL h]

theorem findUncached_masks {S : Sorting} {fuel : Nat} (hG : WFGraph T nodes edges) (hG' : WFGraph T nodes' edges') (h : buildMasks T nodes edges = buildMasks T nodes' edges') {labels : List α} (hl : T.cliqueNumber < labels.length) :
    findUncached S fuel T 64 D D' nodes edges labels = findUncached S fuel T 64 D D' nodes' edges' labels := by
  have key : ∀ {nodes : List Nat} {edges : List (Nat × Nat)}, WFGraph T nodes edges → ¬labels.length ≤ (shortClique T.cliqueNumber nodes edges).length := by
    intro nodes edges hG
    obtain ⟨h1, h2, -⟩ := C49_largest hG
    have hE : Entry nodes edges 1 (shortClique T.cliqueNumber nodes edges) := by
      refine ⟨h1, fun c hc => ?_, fun c hc => Nat.le_of_eq (h2 c hc), fun hne => ?_⟩
      · obtain ⟨v, rfl⟩ := List.length_eq_one_iff.mp (h2 c hc)
        exact List.nodup_singleton v
      · obtain ⟨c, hc⟩ := List.exists_mem_of_ne_nil _ hne
        exact ⟨c, hc, h2 c hc⟩
    obtain ⟨vs, hv, hlen⟩ := singles_clique hE
    have := isClique_le hG hv
    omega
  unfold findUncached findClique
  simp only [if_neg (key hG), if_neg (key hG'), searched_masks h]

end

/-- The draws permute the list of missing couplers, and the cache holds at least one file. -/
structure Build.Ok (P : Build) : Prop where
  limit : 0 < P.limit
  draws : ∀ T s M, (P.draws T s M).1.Perm ∧ (P.draws T s M).2.Perm

/-- A buffer has the length that was asked for. -/
def Chance.Ok (c : Chance) : Prop := ∀ n, (c.junk n).length = n

/-- A graph of its family, of a size that fits the machine. -/
def Target.Ok (g : Target) : Prop := WFGraph g.T g.nodes g.edges ∧ Machine g.T

/-- How many nodes are asked for. -/
def Question.count {α : Type} (q : Question α) : Nat :=
  match q.nodes with
  | .number n => n.toNat
  | .nodes l => l.length

/-- The seed is given, or the cache used, for which there is a default. -/
def Question.Seeded {α : Type} (q : Question α) : Prop := q.seed ≠ .none ∧ (q.useCache = true ∨ q.seed ≠ .absent)

/-- The requests to the cache on disk that a list of calls makes. -/
def requests {α : Type} (P : Build) (h : List (Question α × Chance × Option Nat)) : List (Req (Family × BitVec 64) (List Byte) Cache.Cliques × Option Nat) :=
  h.filterMap fun e => match requestOf P e.2.1 e.1 with | .ok (some r) => some (r, e.2.2) | _ => none

section
variable {α : Type} {P : Build} {int : Nat → α} {c : Chance} {q : Question α} {d : Store} {h : List (Question α × Chance × Option Nat)}

theorem numNodes_length : (numNodes int q.nodes).length = q.count := by
  unfold Question.count
  cases q.nodes <;> simp [numNodes]

theorem requestOf_cache {g : Target} (hqg : q.g = some g) (hu : q.useCache = true) {seed : BitVec 64} (ho : openGraph c.entropy g (seedGiven q.useCache q.seed) = .ok seed) {r : Req (Family × BitVec 64) (List Byte) Cache.Cliques}
    (hr : cacheRequest P c.junk g seed = .ok r) : requestOf P c q = .ok (some r) := by
  unfold requestOf
  rw [hqg]
  simp only
  rw [ho]
  simp only [hu, if_true, hr]

theorem requestOf_inv {r : Req (Family × BitVec 64) (List Byte) Cache.Cliques} (h : requestOf P c q = .ok (some r)) :
    ∃ g seed, q.g = some g ∧ q.useCache = true ∧ openGraph c.entropy g (seedGiven q.useCache q.seed) = .ok seed ∧ cacheRequest P c.junk g seed = .ok r := by
  unfold requestOf at h
  cases hqg : q.g with
  | none => rw [hqg] at h; cases h
  | some g =>
    rw [hqg] at h
    simp only at h
    cases hog : openGraph c.entropy g (seedGiven q.useCache q.seed) with
    | error e => rw [hog] at h; cases h
    | ok seed =>
      rw [hog] at h
      simp only at h
      cases hu : q.useCache with
      | false => rw [hu] at h; cases h
      | true =>
        rw [hu] at h
        simp only [if_true] at h
        cases hr : cacheRequest P c.junk g seed with
        | error e => rw [hr] at h; cases h
        | ok r' => rw [hr] at h; cases h; exact ⟨g, seed, rfl, rfl, hu ▸ hog, hr⟩

/-- With a seed given, what is drawn from the system does not matter. -/
theorem openGraph_seeded {g : Target} (hs : q.Seeded) (a b : BitVec 32) : openGraph a g (seedGiven q.useCache q.seed) = openGraph b g (seedGiven q.useCache q.seed) := by
  obtain ⟨h1, h2⟩ := hs
  unfold openGraph
  have : internalSeed a (seedGiven q.useCache q.seed) = internalSeed b (seedGiven q.useCache q.seed) := by
    cases hseed : q.seed with
    | absent =>
      rcases h2 with h2 | h2
      · rw [h2]; rfl
      · exact absurd hseed h2
    | none => exact absurd hseed h1
    | int z => rfl
  rw [this]

theorem cacheRequest_ok (hP : P.Ok) {g : Target} (hg : g.Ok) (hc : c.Ok) (seed : BitVec 64) : ∃ M embs, buildMasks g.T g.nodes g.edges = .ok M ∧
    bestCliques g.T 64 (P.draws g.T seed M).1 (P.draws g.T seed M).2 g.nodes g.edges = .ok embs ∧
    cacheRequest P c.junk g seed = .ok ⟨(serialFields g.T seed M).flatten, shortCode g.T (serialFields g.T seed M).flatten, false, some (Cache.make embs)⟩ := by
  obtain ⟨M, e, _⟩ := buildMasks_ok hg.1
  obtain ⟨_, embs, _, _, h1, _⟩ := bestCliques_ok hg.1 (bound := 64) (by decide) (hP.draws g.T seed M).1 (hP.draws g.T seed M).2
  refine ⟨M, embs, e, h1, ?_⟩
  simp only [cacheRequest, drawsFor, graphId, e, h1, bind, Except.bind, pure, Except.pure, identifier_ok hc]

theorem history_cons_none {r : Req (Family × BitVec 64) (List Byte) Cache.Cliques} {h : List (Req (Family × BitVec 64) (List Byte) Cache.Cliques × Option Nat)} {limit : Nat} {d : Store} :
    history limit ((r, none) :: h) d = (r, (exec (fetch limit r) d).1) :: history limit h (exec (fetch limit r) d).2 := rfl

variable [DecidableEq α]

theorem asks_mem {x : Except EErr (Cache.Dict α (List Nat))} (hx : (q, x) ∈ asks P int h d) : ∃ c, (q, c, none) ∈ h ∧
    ((∃ r y, requestOf P c q = .ok (some r) ∧ (r, y) ∈ history P.limit (requests P h) d ∧ x = fromCache (numNodes int q.nodes) y) ∨
      ((∀ r, requestOf P c q ≠ .ok (some r)) ∧ ∃ d', x = (ask P int c q d').1)) := by
  induction h generalizing d with
  | nil => cases hx
  | cons p h ih =>
    obtain ⟨q', c, o⟩ := p
    cases hr : requestOf P c q' with
    | error e =>
      have hreq : requests P ((q', c, o) :: h) = requests P h := by simp [requests, hr]
      have hd : (ask P int c q' d).2 = d := by simp [ask, hr]
      have hd' : ∀ n, askKilled P c q' n d = d := by intro n; simp [askKilled, hr]
      cases o with
      | none =>
        rw [asks, hd, List.mem_cons] at hx
        rcases hx with hx | hx
        · cases hx
          exact ⟨c, List.mem_cons_self, .inr ⟨by rw [hr]; simp, d, rfl⟩⟩
        · obtain ⟨c', hc', h⟩ := ih hx
          rw [hreq]
          exact ⟨c', List.mem_cons_of_mem _ hc', h⟩
      | some n =>
        rw [asks, hd'] at hx
        obtain ⟨c', hc', h⟩ := ih hx
        rw [hreq]
        exact ⟨c', List.mem_cons_of_mem _ hc', h⟩
    | ok s =>
      cases s with
      | none =>
        have hreq : requests P ((q', c, o) :: h) = requests P h := by simp [requests, hr]
        have hd : (ask P int c q' d).2 = d := by
          simp only [ask, hr]
          split <;> rfl
        have hd' : ∀ n, askKilled P c q' n d = d := by intro n; simp [askKilled, hr]
        cases o with
        | none =>
          rw [asks, hd, List.mem_cons] at hx
          rcases hx with hx | hx
          · cases hx
            exact ⟨c, List.mem_cons_self, .inr ⟨by rw [hr]; simp, d, rfl⟩⟩
          · obtain ⟨c', hc', h⟩ := ih hx
            rw [hreq]
            exact ⟨c', List.mem_cons_of_mem _ hc', h⟩
        | some n =>
          rw [asks, hd'] at hx
          obtain ⟨c', hc', h⟩ := ih hx
          rw [hreq]
          exact ⟨c', List.mem_cons_of_mem _ hc', h⟩
      | some r =>
        have hreq : requests P ((q', c, o) :: h) = (r, o) :: requests P h := by simp [requests, hr]
        have hd : ask P int c q' d = (fromCache (numNodes int q'.nodes) (exec (fetch P.limit r) d).1, (exec (fetch P.limit r) d).2) := by simp [ask, hr]
        have hd' : ∀ n, askKilled P c q' n d = execN n (fetch P.limit r) d := by intro n; simp [askKilled, hr]
        rw [hreq]
        cases o with
        | none =>
          rw [asks, hd, List.mem_cons] at hx
          rcases hx with hx | hx
          · cases hx
            exact ⟨c, List.mem_cons_self, .inl ⟨r, _, hr, List.mem_cons_self, rfl⟩⟩
          · obtain ⟨c', hc', h⟩ := ih hx
            refine ⟨c', List.mem_cons_of_mem _ hc', ?_⟩
            rcases h with ⟨r', y, a1, a2, a3⟩ | h
            · exact .inl ⟨r', y, a1, List.mem_cons_of_mem _ a2, a3⟩
            · exact .inr h
        | some n =>
          rw [asks, hd'] at hx
          obtain ⟨c', hc', h⟩ := ih hx
          exact ⟨c', List.mem_cons_of_mem _ hc', h⟩

/-- The answer of a call that starts with an empty directory. -/
theorem ask_fresh (hP : P.Ok) {g : Target} (hg : g.Ok) (hqg : q.g = some g) (hu : q.useCache = true) (hc : c.Ok) {seed : BitVec 64} (ho : openGraph c.entropy g (seedGiven q.useCache q.seed) = .ok seed) {M : Masks}
    (hM : buildMasks g.T g.nodes g.edges = .ok M) {embs : List (List (List Nat))} (he : bestCliques g.T 64 (P.draws g.T seed M).1 (P.draws g.T seed M).2 g.nodes g.edges = .ok embs) :
    (ask P int c q Dir.empty).1 = fromCache (numNodes int q.nodes) (.ok (Cache.make embs)) := by
  obtain ⟨_, _, e1, e2, e3⟩ := cacheRequest_ok hP hg hc seed
  rw [hM] at e1; cases e1
  rw [he] at e2; cases e2
  have hr : requestOf P c q = .ok (some ⟨(serialFields g.T seed M).flatten, shortCode g.T (serialFields g.T seed M).flatten, false, some (Cache.make embs)⟩) := requestOf_cache hqg hu ho e3
  have := C42_results hP.limit [(⟨(serialFields g.T seed M).flatten, shortCode g.T (serialFields g.T seed M).flatten, false, some (Cache.make embs)⟩ : Req (Family × BitVec 64) (List Byte) Cache.Cliques)]
  simp only [ask, hr]
  simp only [execAll, serveAll, serve, held, keep, List.cons.injEq, and_true] at this
  rw [this]
  simp [Cache.dget]

end

end Bus

section
variable {α : Type} [DecidableEq α] {P : Build} {int : Nat → α} {h : List (Question α × Chance × Option Nat)}

/-- C116, except for what `C116_listing`, `C116_pegasus` and `C40_broken` refute: calls one after another, some of them killed (but not while they evict). A call with a seed that was not killed gave the answer it gives alone, with an
empty cache, whatever the memory held and the system's random bytes were. If it used the cache this is so provided that it asked for more than four nodes (two in Chimera) or that calls for the same graph list it in the same order,
odd couplers included; and in Pegasus, provided that at most six internal couplers are missing or that all calls used the same seed. -/
theorem C116_repeat_partial (hP : P.Ok) (ho : ∀ e ∈ h, e.2.1.Ok ∧ ∀ g, e.1.g = some g → g.Ok) (hk : NotEvicting P.limit (requests P h) Dir.empty) {q : Question α} {x : Except EErr (Cache.Dict α (List Nat))}
    (hx : (q, x) ∈ asks P int h Dir.empty) (hs : q.Seeded)
    (hl : ∀ g, q.g = some g → q.useCache = true → (if g.T.family = .chimera then 2 else 4) < q.count ∨
      ∀ e ∈ h, ∀ g', e.1.g = some g' → e.1.useCache = true → g'.T = g.T → SameButOdd g.T g.nodes g.edges g'.nodes g'.edges → g' = g)
    (hp : ∀ g, q.g = some g → q.useCache = true → g.T.family = .pegasus → FewMissing g.T g.nodes g.edges 6 ∨ ∀ e ∈ h, e.1.useCache = true → seedGiven true e.1.seed = seedGiven true q.seed)
    {c : Chance} (hc : c.Ok) : x = (ask P int c q Dir.empty).1 := by
  obtain ⟨c0, hmem, hcase⟩ := asks_mem hx
  obtain ⟨hc0, hg0⟩ := ho _ hmem
  rcases hcase with ⟨r, y, hr, hy, rfl⟩ | ⟨hn, d', rfl⟩
  · obtain ⟨g, seed, hqg, hu, hog, hcr⟩ := requestOf_inv hr
    have hg := hg0 g hqg
    obtain ⟨M, embs, hM, hb, hreq⟩ := cacheRequest_ok hP hg hc0 seed
    rw [hreq] at hcr
    cases hcr
    rw [ask_fresh hP hg hqg hu hc ((openGraph_seeded hs c.entropy c0.entropy).trans hog) hM hb]
    rcases C40_partial hP.limit hk _ hy with ⟨v, rfl, z, hz, z1, z2, z3⟩ | ⟨_, hn⟩
    · obtain ⟨e, heh, hez⟩ := List.mem_filterMap.mp hz
      obtain ⟨q', c', o'⟩ := e
      obtain ⟨hc', hg'⟩ := ho _ heh
      simp only at hez hc' hg'
      have hr' : requestOf P c' q' = .ok (some z.1) := by
        split at hez
        · rename_i hr'; cases hez; exact hr'
        · cases hez
      obtain ⟨g', seed', hqg', hu', hog', hcr'⟩ := requestOf_inv hr'
      have hg' := hg' g' hqg'
      obtain ⟨M', embs', hM', hb', hreq'⟩ := cacheRequest_ok hP hg' hc' seed'
      rw [hreq'] at hcr'
      obtain ⟨z, o⟩ := z
      simp only at hcr' z1 z2 z3
      cases hcr'
      simp only [Option.some.injEq] at z1 z2 z3
      subst z3
      have hf : g'.T.family = g.T.family := congrArg Prod.fst z1
      obtain ⟨eT, eM, es⟩ := C53_injective hg'.1 hg.1 hg'.2 hg.2 hf hM' hM z2
      obtain ⟨T, nodes, edges⟩ := g
      obtain ⟨T', nodes', edges'⟩ := g'
      simp only at eT eM es hM hM' hb hb' hf
      subst eT eM
      have hdraws : bestCliques T' 64 (P.draws T' seed M').1 (P.draws T' seed M').2 nodes' edges' = .ok embs' := by
        by_cases hfam : T'.family = .pegasus
        · rcases hp _ hqg hu hfam with hfew | hall
          · obtain ⟨L, hL, hlen⟩ := badEdges_length hg.1 hfew hM
            rw [← hb']
            refine bestCliques_undrawn hM' hL ?_
            calc 2 ^ L.length ≤ 2 ^ 6 := Nat.pow_le_pow_right (by decide) hlen
              _ = 64 := rfl
          · have h1 := hall _ heh hu'
            have h2 : openGraph c'.entropy ⟨T', nodes', edges'⟩ (seedGiven q'.useCache q'.seed) = openGraph c0.entropy ⟨T', nodes, edges⟩ (seedGiven q.useCache q.seed) := by
              rw [hu', h1, ← hu]
              exact (openGraph_seeded hs c'.entropy c0.entropy).trans rfl
            rw [hog, hog'] at h2
            cases h2
            exact hb'
        · rw [← es hfam]; exact hb'
      rcases hl _ hqg hu with hbig | hsame
      · obtain ⟨r'', h1, h2⟩ := bestCliques_masks (hM'.trans hM.symm) hdraws
        rw [hb] at h1
        cases h1
        have hcn : T'.cliqueNumber < (numNodes int q.nodes).length := by
          rw [numNodes_length]
          refine Nat.lt_of_le_of_lt (Nat.le_of_eq ?_) hbig
          cases T' <;> simp [Topo.cliqueNumber, Topo.family]
        simp only [fromCache]
        rw [Cache.find_agree h2 (fun e he => ?_) (fun e he => ?_)]
        · exact Nat.lt_of_le_of_lt (entry_one_lt hg'.1 (hP.draws _ _ _).1 (hP.draws _ _ _).2 hdraws he) hcn
        · exact Nat.lt_of_le_of_lt (entry_one_lt hg.1 (hP.draws _ _ _).1 (hP.draws _ _ _).2 hb he) hcn
      · have := hsame _ heh _ hqg' hu' rfl (sameButOdd_of_masks hg.1 hg'.1 hM hM')
        cases this
        rw [hb] at hdraws
        cases hdraws
        rfl
    · cases hn
  · cases hqg : q.g with
    | none => simp [ask, requestOf, hqg]
    | some g =>
      have hopen := openGraph_seeded (g := g) hs c.entropy c0.entropy
      cases hog : openGraph c0.entropy g (seedGiven q.useCache q.seed) with
      | error e => simp [ask, requestOf, hqg, hog, hopen]
      | ok seed =>
        have hu : q.useCache = false := by
          cases hu : q.useCache with
          | false => rfl
          | true =>
            obtain ⟨M, embs, hM, hb, hreq⟩ := cacheRequest_ok hP (hg0 g hqg) hc0 seed
            exact absurd (requestOf_cache hqg hu hog hreq) (hn _)
        simp only [ask, requestOf, hqg, hog, hopen, hu, Bool.false_eq_true, if_false, oneShot]
        rw [hu] at hog hopen
        rw [hog, hopen, hog]

/-- The seed fits 32 bits, if it is given. -/
def Bus.SeedArg.Valid : SeedArg → Prop
  | .int z => 0 ≤ z ∧ z < 2 ^ 32
  | _ => True

theorem openGraph_valid {g : Target} (hg : g.Ok) {s : SeedArg} (hs : s.Valid) (e : BitVec 32) (u : Bool) : ∃ seed, openGraph e g (seedGiven u s) = .ok seed := by
  have ht : tileSupported g.T = true := by
    have := hg.1.supported
    revert this
    cases g.T <;> simp [tileSupported, Supported]
  unfold openGraph
  rw [if_pos ht]
  cases s with
  | absent => cases u <;> exact ⟨_, rfl⟩
  | none => exact ⟨_, rfl⟩
  | int z =>
    have : internalSeed e (seedGiven u (.int z)) = .ok (BitVec.ofInt 32 z) := if_pos hs
    rw [this]
    exact ⟨_, rfl⟩

/-- C116, whatever the seeds: calls one after another, some of them killed (but not while they evict). A call with the cache and a graph of the families and a seed of 32 bits (or none) that was not killed gave a dictionary with a chain for
each node, valid in the graph of this call, or an empty one, provided that it asked for more than four nodes or that the graph is a Chimera one. -/
theorem C116_valid (hP : P.Ok) (ho : ∀ e ∈ h, e.2.1.Ok ∧ ∀ g, e.1.g = some g → g.Ok) (hk : NotEvicting P.limit (requests P h) Dir.empty) {q : Question α} {x : Except EErr (Cache.Dict α (List Nat))}
    (hx : (q, x) ∈ asks P int h Dir.empty) {g : Target} (hqg : q.g = some g) (hu : q.useCache = true) (hs : q.seed.Valid) (hl : 4 < q.count ∨ g.T.family = .chimera) (hn : (numNodes int q.nodes).Nodup) :
    ∃ e, x = .ok ((numNodes int q.nodes).zip e) ∧ (e = [] ∨ q.count ≤ e.length) ∧ CliqueEmbedding g.nodes g.edges e := by
  have fin : ∀ {T : Topo} {nodes : List Nat} {edges : List (Nat × Nat)} {D D' : Draws} {embs : List (List (List Nat))}, WFGraph T nodes edges → D.Perm → D'.Perm → bestCliques T 64 D D' nodes edges = .ok embs →
      ∃ e, fromCache (numNodes int q.nodes) (.ok (Cache.make embs)) = .ok ((numNodes int q.nodes).zip e) ∧ (e = [] ∨ q.count ≤ e.length) ∧ CliqueEmbedding nodes edges e := by
    intro T nodes edges D D' embs hG hD hD' hb
    obtain ⟨_, r, _, _, h1, h2, _⟩ := bestCliques_ok hG (bound := 64) (by decide) hD hD'
    rw [hb] at h1; cases h1
    rcases C35_find embs (numNodes int q.nodes) with ⟨i, e, e1, e2, _, e3⟩ | ⟨_, e3⟩
    · refine ⟨e, ?_, .inr (by rw [← numNodes_length (int := int)]; exact e2), (h2 i e e1).clique⟩
      simp only [fromCache, e3]
      rw [Cache.toDict_self]
      rw [List.map_fst_zip e2]
      exact hn
    · refine ⟨[], ?_, .inl rfl, ⟨by simp, .nil, .nil⟩⟩
      simp only [fromCache, e3, List.zip_nil_right]
      rfl
  obtain ⟨c0, hmem, hcase⟩ := asks_mem hx
  obtain ⟨hc0, hg0⟩ := ho _ hmem
  have hg := hg0 g hqg
  rcases hcase with ⟨r, y, hr, hy, rfl⟩ | ⟨hnone, d', rfl⟩
  · obtain ⟨g1, seed, hqg1, _, hog, hcr⟩ := requestOf_inv hr
    rw [hqg] at hqg1; cases hqg1
    obtain ⟨M, embs, hM, hb, hreq⟩ := cacheRequest_ok hP hg hc0 seed
    rw [hreq] at hcr
    cases hcr
    rcases C40_partial hP.limit hk _ hy with ⟨v, rfl, z, hz, z1, z2, z3⟩ | ⟨_, hn⟩
    · obtain ⟨e, heh, hez⟩ := List.mem_filterMap.mp hz
      obtain ⟨q', c', o'⟩ := e
      obtain ⟨hc', hg'⟩ := ho _ heh
      simp only at hez hc' hg'
      have hr' : requestOf P c' q' = .ok (some z.1) := by
        split at hez
        · rename_i hr'; cases hez; exact hr'
        · cases hez
      obtain ⟨g', seed', hqg', hu', hog', hcr'⟩ := requestOf_inv hr'
      have hg' := hg' g' hqg'
      obtain ⟨M', embs', hM', hb', hreq'⟩ := cacheRequest_ok hP hg' hc' seed'
      rw [hreq'] at hcr'
      obtain ⟨z, o⟩ := z
      simp only at hcr' z1 z2 z3
      cases hcr'
      simp only [Option.some.injEq] at z1 z2 z3
      subst z3
      have hf : g'.T.family = g.T.family := congrArg Prod.fst z1
      obtain ⟨eT, eM, es⟩ := C53_injective hg'.1 hg.1 hg'.2 hg.2 hf hM' hM z2
      obtain ⟨T, nodes, edges⟩ := g
      obtain ⟨T', nodes', edges'⟩ := g'
      simp only at eT eM es hM hM' hb hb' hf hl
      subst eT eM
      rcases hl with hl | hl
      · obtain ⟨r'', h1, h2⟩ := bestCliques_masks (hM'.trans hM.symm) hb'
        have hcn : T'.cliqueNumber < (numNodes int q.nodes).length := by
          rw [numNodes_length]
          refine Nat.lt_of_le_of_lt ?_ hl
          cases T' <;> simp [Topo.cliqueNumber]
        obtain ⟨e, e1, e2⟩ := fin hg.1 (hP.draws _ _ _).1 (hP.draws _ _ _).2 h1
        refine ⟨e, ?_, e2⟩
        rw [← e1]
        simp only [fromCache]
        rw [Cache.find_agree h2 (fun e he => ?_) (fun e he => ?_)]
        · exact Nat.lt_of_le_of_lt (entry_one_lt hg'.1 (hP.draws _ _ _).1 (hP.draws _ _ _).2 hb' he) hcn
        · exact Nat.lt_of_le_of_lt (entry_one_lt hg.1 (hP.draws _ _ _).1 (hP.draws _ _ _).2 h1 he) hcn
      · obtain ⟨e, e1, e2, e3⟩ := fin hg'.1 (hP.draws _ _ _).1 (hP.draws _ _ _).2 hb'
        have hs := sameButOdd_of_masks hg.1 hg'.1 hM hM'
        have hodd : ∀ p q, ¬OddCoupled T' p q := by
          intro p q ho
          cases T' with
          | chimera _ _ _ => exact ho
          | pegasus _ _ => cases hl
          | zephyr _ _ => cases hl
        exact ⟨e, e1, e2, cliqueEmbedding_mono (fun q => (hs.nodes q).mpr) (fun p q => (hs.couplers p q (hodd p q) (hodd q p)).mpr) e3⟩
    · cases hn
  · exfalso
    obtain ⟨seed, hog⟩ := openGraph_valid hg hs c0.entropy q.useCache
    obtain ⟨M, embs, hM, hb, hreq⟩ := cacheRequest_ok hP hg hc0 seed
    exact absurd (requestOf_cache hqg hu hog hreq) (hnone _)

/-- C116, graphs with few faults: if at most six internal couplers are missing the seed makes no difference, with or without the cache, and neither does leaving it out or asking for a random one. -/
theorem C116_few (hP : P.Ok) {q : Question α} {g : Target} (hqg : q.g = some g) (hg : g.Ok) (hf : FewMissing g.T g.nodes g.edges 6) {s : SeedArg} (h1 : q.seed.Valid) (h2 : s.Valid) {c c' : Chance} (hc : c.Ok) (hc' : c'.Ok) :
    (ask P int c q Dir.empty).1 = (ask P int c' { q with seed := s } Dir.empty).1 := by
  obtain ⟨s1, o1⟩ := openGraph_valid hg h1 c.entropy q.useCache
  obtain ⟨s2, o2⟩ := openGraph_valid hg h2 c'.entropy q.useCache
  obtain ⟨M, e1, hM, b1, r1⟩ := cacheRequest_ok hP hg hc s1
  obtain ⟨_, e2, hM', b2, r2⟩ := cacheRequest_ok hP hg hc' s2
  rw [hM] at hM'; cases hM'
  obtain ⟨L, hL, hlen⟩ := badEdges_length hg.1 hf hM
  have h64 : 2 ^ L.length ≤ 64 := calc 2 ^ L.length ≤ 2 ^ 6 := Nat.pow_le_pow_right (by decide) hlen
    _ = 64 := rfl
  rcases Bool.eq_false_or_eq_true q.useCache with hu | hu
  · rw [ask_fresh hP hg hqg hu hc o1 hM b1, ask_fresh (q := { q with seed := s }) hP hg hqg hu hc' o2 hM b2]
    rw [bestCliques_undrawn (E := (P.draws g.T s2 M).1) (E' := (P.draws g.T s2 M).2) hM hL h64, b2] at b1
    cases b1
    rfl
  · have key : ∀ {c : Chance} {q : Question α} {s : BitVec 64}, q.g = some g → q.useCache = false → openGraph c.entropy g (seedGiven q.useCache q.seed) = .ok s →
        (ask P int c q Dir.empty).1 = match findUncached P.S P.fuel g.T 64 (P.draws g.T s M).1 (P.draws g.T s M).2 g.nodes g.edges (numNodes int q.nodes) with
          | .error f => .error (.code f)
          | .ok items => .ok (Cache.toDict items) := by
      intro c q s hqg hu ho
      have hr : requestOf P c q = .ok none := by
        unfold requestOf
        rw [hqg]
        simp only
        rw [ho]
        simp only [hu, Bool.false_eq_true, if_false]
      unfold ask
      rw [hr]
      simp only [hqg]
      unfold oneShot
      rw [ho]
      have hd : drawsFor P g s = .ok (P.draws g.T s M) := by simp only [drawsFor, hM, bind, Except.bind, pure, Except.pure]
      simp only [hd, bind, Except.bind]
      generalize findUncached P.S P.fuel g.T 64 (P.draws g.T s M).1 (P.draws g.T s M).2 g.nodes g.edges (numNodes int q.nodes) = z
      cases z <;> rfl
    rw [key hqg hu o1, key (q := { q with seed := s }) hqg hu o2, findUncached_few hM hL h64]

/-- C116, what the seed is when it is not given: with the cache it is 0; without the cache, and also if it is given as `None`, it is four bytes from the operating system (and not taken from the state of Python's generator, as the
documentation says). -/
theorem C116_unseeded (q : Question α) (d : Store) (c c' : Chance) :
    ask P int c { q with seed := .absent, useCache := true } d = ask P int c { q with seed := .int 0, useCache := true } d ∧
    ask P int c { q with seed := .absent, useCache := false } d = ask P int c' { q with seed := .int c.entropy.toNat, useCache := false } d ∧
    ask P int c { q with seed := .none } d = ask P int c { q with seed := .int c.entropy.toNat } d := by
  have hi : ∀ e, internalSeed e (some (c.entropy.toNat : Int)) = .ok c.entropy := by
    intro e
    have := c.entropy.isLt
    unfold internalSeed
    simp only
    rw [if_pos ⟨by omega, by exact_mod_cast this⟩]
    congr 1
    rw [BitVec.ofInt_natCast, BitVec.ofNat_toNat, BitVec.setWidth_eq]
  have ho : ∀ g e, openGraph c.entropy g none = openGraph e g (some (c.entropy.toNat : Int)) := by
    intro g e
    unfold openGraph
    rw [hi e]
    rfl
  refine ⟨rfl, ?_, ?_⟩
  · unfold ask requestOf oneShot
    cases hg : q.g with
    | none => rfl
    | some g => simp only [seedGiven, Bool.false_eq_true, if_false, ho g c'.entropy]
  · unfold ask requestOf oneShot
    cases hg : q.g with
    | none => rfl
    | some g => simp only [seedGiven, ho g c.entropy]

/-- C116, exceptions: a graph of another kind, a tile that is too large and a seed that does not fit are refused, in this order, with and without the cache, and nothing on disk changes. -/
theorem C116_errors (q : Question α) (d : Store) (c : Chance) :
    (q.g = none → ask P int c q d = (.error .value, d)) ∧
    (∀ g, q.g = some g → ¬(match g.T with | .chimera _ _ t => t ≤ 8 | .pegasus _ _ => True | .zephyr _ t => t ≤ 4) → ask P int c q d = (.error .notImplemented, d)) ∧
    (∀ g, q.g = some g → g.Ok → ¬q.seed.Valid → ask P int c q d = (.error .overflow, d)) := by
  refine ⟨fun h => ?_, fun g hg ht => ?_, fun g hg hok hs => ?_⟩
  · simp only [ask, requestOf, h]
  · have ho : openGraph c.entropy g (seedGiven q.useCache q.seed) = .error .notImplemented := by
      unfold openGraph
      rw [if_neg]
      revert ht
      cases g.T <;> simp [tileSupported]
    simp only [ask, requestOf, hg, ho]
  · have ht : tileSupported g.T = true := by
      have := hok.1.supported
      revert this
      cases g.T <;> simp [tileSupported, Supported]
    have ho : openGraph c.entropy g (seedGiven q.useCache q.seed) = .error .overflow := by
      unfold openGraph
      rw [if_pos ht]
      revert hs
      cases q.seed with
      | absent => intro hs; exact absurd trivial hs
      | none => intro hs; exact absurd trivial hs
      | int z =>
        intro hs
        have : internalSeed c.entropy (seedGiven q.useCache (.int z)) = .error .overflow := if_neg hs
        rw [this]
    simp only [ask, requestOf, hg, ho]

/-- C116, numbers of nodes: a number stands for the labels 0, 1, …; a negative one for none. -/
theorem C116_number (q : Question α) (d : Store) (c : Chance) (n : Int) :
    ask P int c { q with nodes := .number n } d = ask P int c { q with nodes := .nodes ((List.range n.toNat).map int) } d := rfl

/-- C116 is false of the code in Pegasus: the identifier has no seed. After a call with one seed, a call with another one is answered with what was found for the first. -/
theorem C116_pegasus (hP : P.Ok) {q : Question α} {g : Target} (hqg : q.g = some g) (hu : q.useCache = true) (hg : g.Ok) (hT : g.T.family = .pegasus) {s : SeedArg} (h1 : q.seed.Valid) (h2 : s.Valid) {c c' : Chance} (hc : c.Ok) (hc' : c'.Ok) :
    asks P int [(q, c, none), ({ q with seed := s }, c', none)] Dir.empty =
      [(q, (ask P int c q Dir.empty).1), ({ q with seed := s }, (ask P int c q Dir.empty).1)] := by
  obtain ⟨s1, o1⟩ := openGraph_valid hg h1 c.entropy q.useCache
  obtain ⟨s2, o2⟩ := openGraph_valid hg h2 c'.entropy q.useCache
  obtain ⟨M, e1, hM, b1, r1⟩ := cacheRequest_ok hP hg hc s1
  obtain ⟨_, e2, hM', b2, r2⟩ := cacheRequest_ok hP hg hc' s2
  rw [hM] at hM'; cases hM'
  have hid : serialFields g.T s2 M = serialFields g.T s1 M := by
    revert hT
    cases g.T <;> simp [Topo.family, serialFields]
  rw [hid] at r2
  have q1 : requestOf P c q = _ := requestOf_cache hqg hu o1 r1
  have q2 : requestOf P c' { q with seed := s } = _ := requestOf_cache (q := { q with seed := s }) hqg hu o2 r2
  have := C42_results hP.limit [(⟨(serialFields g.T s1 M).flatten, shortCode g.T (serialFields g.T s1 M).flatten, false, some (Cache.make e1)⟩ : Req (Family × BitVec 64) (List Byte) Cache.Cliques),
    ⟨(serialFields g.T s1 M).flatten, shortCode g.T (serialFields g.T s1 M).flatten, false, some (Cache.make e2)⟩]
  obtain ⟨l, hl⟩ : ∃ l, P.limit = l + 1 := ⟨P.limit - 1, by have := hP.limit; omega⟩
  simp only [execAll] at this
  simp only [asks, ask, q1, q2]
  have e : (serveAll P.limit [] [(⟨(serialFields g.T s1 M).flatten, shortCode g.T (serialFields g.T s1 M).flatten, false, some (Cache.make e1)⟩ : Req (Family × BitVec 64) (List Byte) Cache.Cliques),
    ⟨(serialFields g.T s1 M).flatten, shortCode g.T (serialFields g.T s1 M).flatten, false, some (Cache.make e2)⟩]).1 = [.ok (Cache.make e1), .ok (Cache.make e1)] := by
    rw [hl]
    simp [serveAll, serve, held, keep, Cache.dget, Cache.dset]
  rw [e] at this
  simp only [List.cons.injEq, and_true] at this
  rw [this.1, this.2]

end

end MM
