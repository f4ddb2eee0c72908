import Verif.Cache.EntryBi
import Verif.Props.Bicliques
import Verif.Props.Repeat

/-! C118: whether the same query for a biclique gets the same answer. -/

namespace MM

open Bus Lattice Spec Disk

namespace Bus

section
variable {T : Topo} {nodes nodes' : List Nat} {edges edges' : List (Nat × Nat)} {D D' E E' : Draws} {M : Masks} {bound : Nat}

theorem bestBicliques_masks (h : buildMasks T nodes edges = buildMasks T nodes' edges') : bestBicliques T bound D D' nodes edges = bestBicliques T bound D D' nodes' edges' := by
  unfold bestBicliques
  rw [searched_masks h]

theorem bestBicliques_undrawn {L : List (Nat × Nat)} (hM : buildMasks T nodes edges = .ok M) (hL : badEdges T M.bad = .ok L) (h : 2 ^ L.length ≤ bound) :
    bestBicliques T bound D D' nodes edges = bestBicliques T bound E E' nodes edges := by
  unfold bestBicliques
  rw [searched_undrawn (E := E) (E' := E') hM hL h]

end

/-- A listing gives every item once. -/
def Listing.Ok (ord : Listing) : Prop := ∀ l, (ord l).Perm l

/-- A graph of its family, of a size that fits the machine, with at least one row and one column. -/
def Target.Wide (g : Target) : Prop := g.Ok ∧ 0 < g.T.dimY ∧ 0 < g.T.dimX

/-- The requests to the cache on disk that a list of queries makes. -/
def biRequests {α : Type} (P : Build) (ord : Listing) (h : List (BiQuestion α × Chance × Option Nat)) : List (Req (Family × BitVec 64) (List Byte) Cache.Bicliques × Option Nat) :=
  h.filterMap fun e => match biRequestOf P ord e.2.1 e.1 with | .ok r => some (r, e.2.2) | .error _ => none

section
variable {α : Type} {P : Build} {ord : Listing} {int : Nat → α} {c : Chance} {q : BiQuestion α} {d : BiStore} {h : List (BiQuestion α × Chance × Option Nat)}

theorem biRequestOf_some {g : Target} (hqg : q.g = some g) {seed : BitVec 64} (ho : openGraph c.entropy g (seedGiven true q.seed) = .ok seed) {r : Req (Family × BitVec 64) (List Byte) Cache.Bicliques}
    (hr : biRequest P ord c.junk g seed = .ok r) : biRequestOf P ord c q = .ok r := by
  simp only [biRequestOf, hqg, ho, hr]

theorem biRequestOf_inv {r : Req (Family × BitVec 64) (List Byte) Cache.Bicliques} (h : biRequestOf P ord c q = .ok r) :
    ∃ g seed, q.g = some g ∧ openGraph c.entropy g (seedGiven true q.seed) = .ok seed ∧ biRequest P ord c.junk g seed = .ok r := by
  unfold biRequestOf at h
  cases hqg : q.g with
  | none => rw [hqg] at h; cases h
  | some g =>
    rw [hqg] at h
    simp only at h
    cases hog : openGraph c.entropy g (seedGiven true q.seed) with
    | error e => rw [hog] at h; cases h
    | ok seed =>
      rw [hog] at h
      simp only at h
      cases hr : biRequest P ord c.junk g seed with
      | error e => rw [hr] at h; cases h
      | ok r' => rw [hr] at h; cases h; exact ⟨g, seed, rfl, hog, hr⟩

/-- With a seed, or the default one, what is drawn from the system does not matter. -/
theorem openGraph_given {g : Target} {s : SeedArg} (hs : s ≠ .none) (a b : BitVec 32) : openGraph a g (seedGiven true s) = openGraph b g (seedGiven true s) := by
  cases s with
  | none => exact absurd rfl hs
  | absent => rfl
  | int z => rfl

theorem biRequest_ok (hP : P.Ok) {g : Target} (hg : g.Wide) (hc : c.Ok) (seed : BitVec 64) : ∃ M embs, buildMasks g.T g.nodes g.edges = .ok M ∧
    bestBicliques g.T 64 (P.draws g.T seed M).1 (P.draws g.T seed M).2 g.nodes g.edges = .ok embs ∧
    biRequest P ord c.junk g seed = .ok ⟨(serialFields g.T seed M).flatten, shortCode g.T (serialFields g.T seed M).flatten, false, (Cache.makeBicliques (ord embs)).toOption⟩ := by
  obtain ⟨M, e, _⟩ := buildMasks_ok hg.1.1
  obtain ⟨_, embs, _, h1, _⟩ := bestBicliques_ok hg.1.1 hg.2.1 hg.2.2 (bound := 64) (by decide) (hP.draws g.T seed M).1 (hP.draws g.T seed M).2
  refine ⟨M, embs, e, h1, ?_⟩
  simp only [biRequest, drawsFor, graphId, e, h1, bind, Except.bind, pure, Except.pure, identifier_ok hc]

variable [DecidableEq α]

theorem asksBi_mem {x : Except EErr (Cache.Dict α (List Nat))} (hx : (q, x) ∈ asksBi P ord int h d) : ∃ c, (q, c, none) ∈ h ∧
    ((∃ r y, biRequestOf P ord c q = .ok r ∧ (r, y) ∈ history P.limit (biRequests P ord h) d ∧ x = fromBicliques int q.query y) ∨
      ∃ e, biRequestOf P ord c q = .error e ∧ x = .error e) := by
  induction h generalizing d with
  | nil => cases hx
  | cons p h ih =>
    obtain ⟨q', c, o⟩ := p
    cases hr : biRequestOf P ord c q' with
    | error e =>
      have hreq : biRequests P ord ((q', c, o) :: h) = biRequests P ord h := by simp [biRequests, hr]
      have hd : askBi P ord int c q' d = (.error e, d) := by simp [askBi, hr]
      have hd' : ∀ n, askBiKilled P ord c q' n d = d := by intro n; simp [askBiKilled, hr]
      cases o with
      | none =>
        rw [asksBi, hd, List.mem_cons] at hx
        rcases hx with hx | hx
        · cases hx
          exact ⟨c, List.mem_cons_self, .inr ⟨e, hr, rfl⟩⟩
        · obtain ⟨c', hc', h⟩ := ih hx
          rw [hreq]
          exact ⟨c', List.mem_cons_of_mem _ hc', h⟩
      | some n =>
        rw [asksBi, hd'] at hx
        obtain ⟨c', hc', h⟩ := ih hx
        rw [hreq]
        exact ⟨c', List.mem_cons_of_mem _ hc', h⟩
    | ok r =>
      have hreq : biRequests P ord ((q', c, o) :: h) = (r, o) :: biRequests P ord h := by simp [biRequests, hr]
      have hd : askBi P ord int c q' d = (fromBicliques int q'.query (exec (fetch P.limit r) d).1, (exec (fetch P.limit r) d).2) := by simp [askBi, hr]
      have hd' : ∀ n, askBiKilled P ord c q' n d = execN n (fetch P.limit r) d := by intro n; simp [askBiKilled, hr]
      rw [hreq]
      cases o with
      | none =>
        rw [asksBi, hd, List.mem_cons] at hx
        rcases hx with hx | hx
        · cases hx
          exact ⟨c, List.mem_cons_self, .inl ⟨r, _, hr, List.mem_cons_self, rfl⟩⟩
        · obtain ⟨c', hc', h⟩ := ih hx
          refine ⟨c', List.mem_cons_of_mem _ hc', ?_⟩
          rcases h with ⟨r', y, a1, a2, a3⟩ | h
          · exact .inl ⟨r', y, a1, List.mem_cons_of_mem _ a2, a3⟩
          · exact .inr h
      | some n =>
        rw [asksBi, hd'] at hx
        obtain ⟨c', hc', h⟩ := ih hx
        exact ⟨c', List.mem_cons_of_mem _ hc', h⟩

/-- What a fetch gives when the directory is empty. -/
theorem fetch_fresh {C I V : Type} [DecidableEq C] [DecidableEq I] {limit : Nat} (hlim : 0 < limit) (r : Req C I V) (hf : r.force = false) :
    (exec (fetch limit r) Dir.empty).1 = match r.compute with | some v => .ok v | none => .error .compute := by
  have := C42_results hlim [r]
  simp only [execAll, serveAll, List.cons.injEq, and_true] at this
  rw [this]
  obtain ⟨id, code, force, compute⟩ := r
  simp only at hf
  subst hf
  cases compute <;> simp [serve, held, Cache.dget]

/-- The answer to a query that starts with an empty directory. -/
theorem askBi_fresh (hP : P.Ok) {g : Target} (hg : g.Wide) (hqg : q.g = some g) (hc : c.Ok) {seed : BitVec 64} (ho : openGraph c.entropy g (seedGiven true q.seed) = .ok seed) {M : Masks}
    (hM : buildMasks g.T g.nodes g.edges = .ok M) {embs : List ((Nat × Nat) × List (List Nat))} (he : bestBicliques g.T 64 (P.draws g.T seed M).1 (P.draws g.T seed M).2 g.nodes g.edges = .ok embs) :
    (askBi P ord int c q Dir.empty).1 = fromBicliques int q.query (match (Cache.makeBicliques (ord embs)).toOption with | some b => .ok b | none => .error .compute) := by
  obtain ⟨_, _, e1, e2, e3⟩ := biRequest_ok (ord := ord) hP hg hc seed
  rw [hM] at e1; cases e1
  rw [he] at e2; cases e2
  have hr := biRequestOf_some (P := P) hqg ho e3
  simp only [askBi, hr]
  rw [fetch_fresh hP.limit _ rfl]
  simp only
  generalize (Cache.makeBicliques (ord embs)).toOption = z
  cases z <;> rfl

end

end Bus

section
variable {α : Type} [DecidableEq α] {P : Build} {ord : Listing} {int : Nat → α} {h : List (BiQuestion α × Chance × Option Nat)}

/-- C118, except for what `C118_pegasus` and `C40_broken` refute: queries for bicliques one after another, each to an object made for it, some of them killed (but not while they evict). A query that was not killed, to an object with a
seed or the default one, got the answer it gets alone, with an empty cache, whatever the other queries were, the memory held and the system's random bytes were; in Pegasus, provided that at most six internal couplers are missing
or that all objects had the same seed. -/
theorem C118_repeat_partial (hP : P.Ok) (ho : ∀ e ∈ h, e.2.1.Ok ∧ ∀ g, e.1.g = some g → g.Wide) (hk : NotEvicting P.limit (biRequests P ord h) Dir.empty) {q : BiQuestion α} {x : Except EErr (Cache.Dict α (List Nat))}
    (hx : (q, x) ∈ asksBi P ord int h Dir.empty) (hs : q.seed ≠ .none)
    (hp : ∀ g, q.g = some g → g.T.family = .pegasus → FewMissing g.T g.nodes g.edges 6 ∨ ∀ e ∈ h, seedGiven true e.1.seed = seedGiven true q.seed)
    {c : Chance} (hc : c.Ok) : x = (askBi P ord int c q Dir.empty).1 := by
  obtain ⟨c0, hmem, hcase⟩ := asksBi_mem hx
  obtain ⟨hc0, hg0⟩ := ho _ hmem
  rcases hcase with ⟨r, y, hr, hy, rfl⟩ | ⟨e, hn, rfl⟩
  · obtain ⟨g, seed, hqg, hog, hcr⟩ := biRequestOf_inv hr
    have hg := hg0 g hqg
    obtain ⟨M, embs, hM, hb, hreq⟩ := biRequest_ok (ord := ord) hP hg hc0 seed
    rw [hreq] at hcr
    cases hcr
    rw [askBi_fresh hP hg hqg hc ((openGraph_given hs c.entropy c0.entropy).trans hog) hM hb]
    rcases C40_partial hP.limit hk _ hy with ⟨v, rfl, z, hz, z1, z2, z3⟩ | ⟨hn1, hn2⟩
    · obtain ⟨e, heh, hez⟩ := List.mem_filterMap.mp hz
      obtain ⟨q', c', o'⟩ := e
      obtain ⟨hc', hg'⟩ := ho _ heh
      simp only at hez hc' hg'
      have hr' : biRequestOf P ord c' q' = .ok z.1 := by
        split at hez
        · rename_i hr'; cases hez; exact hr'
        · cases hez
      obtain ⟨g', seed', hqg', hog', hcr'⟩ := biRequestOf_inv hr'
      have hg' := hg' g' hqg'
      obtain ⟨M', embs', hM', hb', hreq'⟩ := biRequest_ok (ord := ord) hP hg' hc' seed'
      rw [hreq'] at hcr'
      obtain ⟨z, o⟩ := z
      simp only at hcr' z1 z2 z3
      cases hcr'
      simp only at z1 z2 z3
      have hf : g'.T.family = g.T.family := congrArg Prod.fst z1
      obtain ⟨eT, eM, es⟩ := C53_injective hg'.1.1 hg.1.1 hg'.1.2 hg.1.2 hf hM' hM z2
      obtain ⟨T, nodes, edges⟩ := g
      obtain ⟨T', nodes', edges'⟩ := g'
      simp only at eT eM es hM hM' hb hb' hf
      subst eT eM
      have hdraws : bestBicliques T' 64 (P.draws T' seed M').1 (P.draws T' seed M').2 nodes' edges' = .ok embs' := by
        by_cases hfam : T'.family = .pegasus
        · rcases hp _ hqg hfam with hfew | hall
          · obtain ⟨L, hL, hlen⟩ := badEdges_length hg.1.1 hfew hM
            rw [← hb']
            refine bestBicliques_undrawn hM' hL ?_
            calc 2 ^ L.length ≤ 2 ^ 6 := Nat.pow_le_pow_right (by decide) hlen
              _ = 64 := rfl
          · have h1 := hall _ heh
            have h2 : openGraph c'.entropy ⟨T', nodes', edges'⟩ (seedGiven true q'.seed) = openGraph c0.entropy ⟨T', nodes, edges⟩ (seedGiven true q.seed) := by
              rw [h1]
              exact (openGraph_given hs c'.entropy c0.entropy).trans rfl
            rw [hog, hog'] at h2
            cases h2
            exact hb'
        · rw [← es hfam]; exact hb'
      rw [bestBicliques_masks (hM'.trans hM.symm), hb] at hdraws
      cases hdraws
      rw [z3]
    · simp only at hn1 hn2
      rw [hn2]
      subst hn1
      rfl
  · cases hqg : q.g with
    | none =>
      simp only [biRequestOf, hqg] at hn
      simp [askBi, biRequestOf, hqg, hn]
    | some g =>
      have hopen := openGraph_given (g := g) hs c.entropy c0.entropy
      cases hog : openGraph c0.entropy g (seedGiven true q.seed) with
      | error e' =>
        simp only [biRequestOf, hqg, hog] at hn
        simp [askBi, biRequestOf, hqg, hog, hopen, hn]
      | ok seed =>
        obtain ⟨M, embs, hM, hb, hreq⟩ := biRequest_ok (ord := ord) hP (hg0 g hqg) hc0 seed
        rw [biRequestOf_some hqg hog hreq] at hn
        cases hn

theorem Bus.found_items {T : Topo} {nodes : List Nat} {edges : List (Nat × Nat)} (hG : WFGraph T nodes edges) (hY : 0 < T.dimY) (hX : 0 < T.dimX) {D D' : Draws} (hD : D.Perm) (hD' : D'.Perm) (hord : ord.Ok)
    {embs : List ((Nat × Nat) × List (List Nat))} (he : bestBicliques T 64 D D' nodes edges = .ok embs) : BicliqueItems nodes edges (ord embs) := by
  obtain ⟨_, embs', _, h2, h3, h4, _⟩ := C39_partial hG hY hX (bound := 64) (by decide) hD hD'
  rw [he] at h2; cases h2
  have hperm := hord embs
  refine ⟨(hperm.map Prod.fst).nodup_iff.mpr h3, fun s emb hs => ?_⟩
  obtain ⟨A, B, a1, a2, a3, a4, a5, _⟩ := h4 s emb (hperm.mem_iff.mp hs)
  exact ⟨A, B, a1, a2, a3, a4, a5⟩

/-- The answers to the two queries that are right for a graph: an exception of the search, an empty dictionary, or a valid biclique with the labels asked for. -/
def RightAnswer (int : Nat → α) (nodes : List Nat) (edges : List (Nat × Nat)) (query : BiQuery α) (x : Except EErr (Cache.Dict α (List Nat))) : Prop :=
  match query with
  | .pair nn mm => ∀ (N M : List α), N = (match nn with | .number n => (List.range n.toNat).map int | .nodes l => l) → M = (match mm with | .number m => (List.range m.toNat).map (fun j => int (N.length + j)) | .nodes l => l) →
      (N ++ M).Nodup → x = .ok [] ∨ ∃ A B items, x = .ok items ∧ items.Perm (N.zip A ++ M.zip B) ∧ A.length = N.length ∧ B.length = M.length ∧ BicliqueEmbedding nodes edges A B
  | .largest => ∃ A B, x = .ok (((List.range (2 * A.length)).map int).zip (A ++ B)) ∧ A.length = B.length ∧ A ≠ [] ∧ BicliqueEmbedding nodes edges A B

theorem fromBicliques_right {nodes : List Nat} {edges : List (Nat × Nat)} {embs : List ((Nat × Nat) × List (List Nat))} (h : BicliqueItems nodes edges embs) {b : Cache.Bicliques} (hb : Cache.makeBicliques embs = .ok b)
    (hint : ∀ i j, int i = int j → i = j) (query : BiQuery α) : RightAnswer int nodes edges query (fromBicliques int query (.ok b)) := by
  have hne : embs ≠ [] := by
    rintro rfl
    cases hb
  cases query with
  | pair nn mm =>
    rintro N M hN hM hnd
    obtain ⟨c, c1, c2, c3⟩ := C38_partial h hne N M
    rw [hb] at c1; cases c1
    have e : fromBicliques int (.pair nn mm) (.ok b) = match Cache.findBiclique b N M with | .error e => .error (.memory e) | .ok items => .ok (Cache.toDict items) := by
      subst hN hM
      cases nn <;> cases mm <;> rfl
    rw [e]
    by_cases h0 : (N ≠ [] ∨ M ≠ []) ∧ ∃ p ∈ embs, max N.length M.length ≤ min p.1.1 p.1.2
    · obtain ⟨A, B, items, e1, e2, e3, e4, e5, _⟩ := c2 h0.1 h0.2
      refine .inr ⟨A, B, items, ?_, e2, e3, e4, e5⟩
      rw [e1]
      simp only
      rw [Cache.toDict_self]
      refine (e2.map Prod.fst).nodup_iff.mpr ?_
      rw [List.map_append, List.map_fst_zip (by omega), List.map_fst_zip (by omega)]
      exact hnd
    · left
      rw [c3]
      · rfl
      · by_cases hp : ∃ p ∈ embs, max N.length M.length ≤ min p.1.1 p.1.2
        · left
          rw [not_and_or] at h0
          rcases h0 with h0 | h0
          · rw [not_or, not_not, not_not] at h0; exact h0
          · exact absurd hp h0
        · exact .inr hp
  | largest =>
    obtain ⟨c, c1, A, B, c2, c3, c4, c5, _⟩ := C62_partial h hne
    rw [hb] at c1; cases c1
    refine ⟨A, B, ?_, c3, c4, c5⟩
    have hlen : (A ++ B).length = 2 * A.length := by rw [List.length_append]; omega
    simp only [fromBicliques, c2]
    rw [Cache.toDict_self, hlen]
    rw [List.map_fst_zip (by simp)]
    exact List.nodup_range.map (fun i j => hint i j)

/-- C118, whatever the seeds: queries one after another, some of them killed (but not while they evict). A query with a graph of the families and a seed of 32 bits (or none) that was not killed got an answer that is right for the graph of
this query, or a `ValueError` because no biclique was found in it. -/
theorem C118_valid (hP : P.Ok) (hord : ord.Ok) (hint : ∀ i j, int i = int j → i = j) (ho : ∀ e ∈ h, e.2.1.Ok ∧ ∀ g, e.1.g = some g → g.Wide) (hk : NotEvicting P.limit (biRequests P ord h) Dir.empty) {q : BiQuestion α}
    {x : Except EErr (Cache.Dict α (List Nat))} (hx : (q, x) ∈ asksBi P ord int h Dir.empty) {g : Target} (hqg : q.g = some g) (hs : q.seed.Valid) :
    RightAnswer int g.nodes g.edges q.query x ∨ (x = .error (.disk .compute) ∧ ∃ D D' : Draws, D.Perm ∧ D'.Perm ∧ bestBicliques g.T 64 D D' g.nodes g.edges = .ok []) := by
  obtain ⟨c0, hmem, hcase⟩ := asksBi_mem hx
  obtain ⟨hc0, hg0⟩ := ho _ hmem
  have hg := hg0 g hqg
  rcases hcase with ⟨r, y, hr, hy, rfl⟩ | ⟨e, hn, rfl⟩
  · obtain ⟨g1, seed, hqg1, hog, hcr⟩ := biRequestOf_inv hr
    rw [hqg] at hqg1; cases hqg1
    obtain ⟨M, embs, hM, hb, hreq⟩ := biRequest_ok (ord := ord) hP hg hc0 seed
    rw [hreq] at hcr
    cases hcr
    rcases C40_partial hP.limit hk _ hy with ⟨v, rfl, z, hz, z1, z2, z3⟩ | ⟨hn1, hn2⟩
    · left
      obtain ⟨e, heh, hez⟩ := List.mem_filterMap.mp hz
      obtain ⟨q', c', o'⟩ := e
      obtain ⟨hc', hg'⟩ := ho _ heh
      simp only at hez hc' hg'
      have hr' : biRequestOf P ord c' q' = .ok z.1 := by
        split at hez
        · rename_i hr'; cases hez; exact hr'
        · cases hez
      obtain ⟨g', seed', hqg', hog', hcr'⟩ := biRequestOf_inv hr'
      have hg' := hg' g' hqg'
      obtain ⟨M', embs', hM', hb', hreq'⟩ := biRequest_ok (ord := ord) hP hg' hc' seed'
      rw [hreq'] at hcr'
      obtain ⟨z, o⟩ := z
      simp only at hcr' z1 z2 z3
      cases hcr'
      simp only at z1 z2 z3
      have hf : g'.T.family = g.T.family := congrArg Prod.fst z1
      obtain ⟨eT, eM, es⟩ := C53_injective hg'.1.1 hg.1.1 hg'.1.2 hg.1.2 hf hM' hM z2
      obtain ⟨T, nodes, edges⟩ := g
      obtain ⟨T', nodes', edges'⟩ := g'
      simp only at eT eM es hM hM' hb hb' hf
      subst eT eM
      rw [bestBicliques_masks (hM'.trans hM.symm)] at hb'
      refine fromBicliques_right (found_items hg.1.1 hg.2.1 hg.2.2 (hP.draws _ _ _).1 (hP.draws _ _ _).2 hord hb') ?_ hint _
      cases hm : Cache.makeBicliques (ord embs') with
      | error e => rw [hm] at z3; cases z3
      | ok b => rw [hm] at z3; cases z3; rfl
    · right
      simp only at hn1 hn2
      subst hn1
      refine ⟨by cases q.query <;> rfl, _, _, (hP.draws g.T seed M).1, (hP.draws g.T seed M).2, hb.trans ?_⟩
      congr 1
      by_contra hne
      have hne' : ord embs ≠ [] := fun e => hne (by have := hord embs; rw [e] at this; exact this.nil_eq.symm)
      obtain ⟨c, c1, _⟩ := C62_partial (found_items hg.1.1 hg.2.1 hg.2.2 (hP.draws _ _ _).1 (hP.draws _ _ _).2 hord hb) hne'
      rw [c1] at hn2
      cases hn2
  · exfalso
    obtain ⟨seed, hog⟩ := openGraph_valid hg.1 hs c0.entropy true
    obtain ⟨M, embs, hM, hb, hreq⟩ := biRequest_ok (ord := ord) hP hg hc0 seed
    rw [biRequestOf_some hqg hog hreq] at hn
    cases hn

/-- C118, graphs with few faults: if at most six internal couplers are missing the seed makes no difference, and neither does leaving it out or asking for a random one. -/
theorem C118_few (hP : P.Ok) {q : BiQuestion α} {g : Target} (hqg : q.g = some g) (hg : g.Wide) (hf : FewMissing g.T g.nodes g.edges 6) {s : SeedArg} (h1 : q.seed.Valid) (h2 : s.Valid) {c c' : Chance} (hc : c.Ok) (hc' : c'.Ok) :
    (askBi P ord int c q Dir.empty).1 = (askBi P ord int c' { q with seed := s } Dir.empty).1 := by
  obtain ⟨s1, o1⟩ := openGraph_valid hg.1 h1 c.entropy true
  obtain ⟨s2, o2⟩ := openGraph_valid hg.1 h2 c'.entropy true
  obtain ⟨M, e1, hM, b1, r1⟩ := biRequest_ok (ord := ord) hP hg hc s1
  obtain ⟨_, e2, hM', b2, r2⟩ := biRequest_ok (ord := ord) hP hg hc' s2
  rw [hM] at hM'; cases hM'
  obtain ⟨L, hL, hlen⟩ := badEdges_length hg.1.1 hf hM
  have h64 : 2 ^ L.length ≤ 64 := calc 2 ^ L.length ≤ 2 ^ 6 := Nat.pow_le_pow_right (by decide) hlen
    _ = 64 := rfl
  rw [askBi_fresh hP hg hqg hc o1 hM b1, askBi_fresh (q := { q with seed := s }) hP hg hqg hc' o2 hM b2]
  rw [bestBicliques_undrawn (E := (P.draws g.T s2 M).1) (E' := (P.draws g.T s2 M).2) hM hL h64, b2] at b1
  cases b1
  rfl

/-- C118, exceptions: a graph of another kind, a tile that is too large and a seed that does not fit are refused, in this order, and nothing on disk changes. -/
theorem C118_errors (q : BiQuestion α) (d : BiStore) (c : Chance) :
    (q.g = none → askBi P ord int c q d = (.error .value, d)) ∧
    (∀ g, q.g = some g → ¬(match g.T with | .chimera _ _ t => t ≤ 8 | .pegasus _ _ => True | .zephyr _ t => t ≤ 4) → askBi P ord int c q d = (.error .notImplemented, d)) ∧
    (∀ g, q.g = some g → g.Ok → ¬q.seed.Valid → askBi P ord int c q d = (.error .overflow, d)) := by
  refine ⟨fun h => ?_, fun g hg ht => ?_, fun g hg hok hs => ?_⟩
  · simp only [askBi, biRequestOf, h]
  · have ho : openGraph c.entropy g (seedGiven true q.seed) = .error .notImplemented := by
      unfold openGraph
      rw [if_neg]
      revert ht
      cases g.T <;> simp [tileSupported]
    simp only [askBi, biRequestOf, hg, ho]
  · have ht : tileSupported g.T = true := by
      have := hok.1.supported
      revert this
      cases g.T <;> simp [tileSupported, Supported]
    have ho : openGraph c.entropy g (seedGiven true q.seed) = .error .overflow := by
      unfold openGraph
      rw [if_pos ht]
      revert hs
      cases q.seed with
      | absent => intro hs; exact absurd trivial hs
      | none => intro hs; exact absurd trivial hs
      | int z =>
        intro hs
        have : internalSeed c.entropy (seedGiven true (.int z)) = .error .overflow := if_neg hs
        rw [this]
    simp only [askBi, biRequestOf, hg, ho]

/-- C118 is false of the code in Pegasus: the identifier has no seed. After a query with one seed that found bicliques, a query to an object with another one is answered with what was found for the first. -/
theorem C118_pegasus (hP : P.Ok) {q : BiQuestion α} {g : Target} (hqg : q.g = some g) (hg : g.Wide) (hT : g.T.family = .pegasus) {s : SeedArg} (h1 : q.seed.Valid) (h2 : s.Valid) {c c' : Chance} (hc : c.Ok) (hc' : c'.Ok)
    (hne : (askBi P ord int c q Dir.empty).1 ≠ .error (.disk .compute)) :
    asksBi P ord int [(q, c, none), ({ q with seed := s }, c', none)] Dir.empty =
      [(q, (askBi P ord int c q Dir.empty).1), ({ q with seed := s }, (askBi P ord int c q Dir.empty).1)] := by
  obtain ⟨s1, o1⟩ := openGraph_valid hg.1 h1 c.entropy true
  obtain ⟨s2, o2⟩ := openGraph_valid hg.1 h2 c'.entropy true
  obtain ⟨M, e1, hM, b1, r1⟩ := biRequest_ok (ord := ord) hP hg hc s1
  obtain ⟨_, e2, hM', b2, r2⟩ := biRequest_ok (ord := ord) hP hg hc' s2
  rw [hM] at hM'; cases hM'
  have hid : serialFields g.T s2 M = serialFields g.T s1 M := by
    revert hT
    cases g.T <;> simp [Topo.family, serialFields]
  rw [hid] at r2
  have q1 : biRequestOf P ord c q = _ := biRequestOf_some hqg o1 r1
  have q2 : biRequestOf P ord c' { q with seed := s } = _ := biRequestOf_some (q := { q with seed := s }) hqg o2 r2
  rw [askBi_fresh hP hg hqg hc o1 hM b1] at hne
  cases hm : (Cache.makeBicliques (ord e1)).toOption with
  | none =>
    rw [hm] at hne
    exact absurd (by cases q.query <;> rfl) hne
  | some v =>
    rw [hm] at q1
    generalize (Cache.makeBicliques (ord e2)).toOption = w at q2
    have := C42_results hP.limit [(⟨(serialFields g.T s1 M).flatten, shortCode g.T (serialFields g.T s1 M).flatten, false, some v⟩ : Req (Family × BitVec 64) (List Byte) Cache.Bicliques),
      ⟨(serialFields g.T s1 M).flatten, shortCode g.T (serialFields g.T s1 M).flatten, false, w⟩]
    obtain ⟨l, hl⟩ : ∃ l, P.limit = l + 1 := ⟨P.limit - 1, by have := hP.limit; omega⟩
    simp only [execAll] at this
    simp only [asksBi, askBi, q1, q2]
    have e : (serveAll P.limit [] [(⟨(serialFields g.T s1 M).flatten, shortCode g.T (serialFields g.T s1 M).flatten, false, some v⟩ : Req (Family × BitVec 64) (List Byte) Cache.Bicliques),
      ⟨(serialFields g.T s1 M).flatten, shortCode g.T (serialFields g.T s1 M).flatten, false, w⟩]).1 = [.ok v, .ok v] := by
      rw [hl]
      simp [serveAll, serve, held, keep, Cache.dget, Cache.dset]
    rw [e] at this
    simp only [List.cons.injEq, and_true] at this
    rw [this.1, this.2]

end

end MM
