import Verif.Cache.IdentInv
import Verif.Props.Disk
import Verif.Props.CliqueCache
import Verif.Props.BusDemo

/-! C53, C64, C65: what identifies a graph in the cache. -/

namespace MM

open Bus Lattice Spec Disk

section
variable {T T' : Topo} {nodes nodes' : List Nat} {edges edges' : List (Nat × Nat)} {seed seed' : BitVec 64} {M M' : Masks}

/-- C53, sizes: for the masks of every graph, what is written is as long as announced, fits the buffer of that length and fills it, whatever was there before: 32 bytes of dimensions and seed, or 12 of offsets in Pegasus, then one byte
for each cell and orientation, the same again, and one byte for each fragment. -/
theorem C53_size (hG : WFGraph T nodes edges) (seed : BitVec 64) : ∃ M, buildMasks T nodes edges = .ok M ∧
    serialSize (serialFields T seed M) = (if T.family = .pegasus then 12 else 32) + T.dimY * T.dimX * 2 * (2 + T.shore) ∧
    ∀ junk : List Byte, junk.length = serialSize (serialFields T seed M) →
      serialWrite junk 0 (serialFields T seed M) = .ok ((serialFields T seed M).flatten, serialSize (serialFields T seed M)) ∧ (serialFields T seed M).flatten.length = junk.length := by
  obtain ⟨M, h1, h2⟩ := buildMasks_ok hG
  refine ⟨M, h1, ?_, fun junk hj => ⟨?_, by rw [hj, serialSize_eq]⟩⟩
  · have e : T.dimY * T.dimX * 2 * (2 + T.shore) = T.numCells + (T.numCells + T.numCells * T.shore) := by unfold Topo.numCells; ring
    rw [e]
    cases T <;> simp only [serialFields, serialSize, h2.nodeLen, h2.edgeLen, h2.badLen, le64_length, offsetBytes_length, Topo.family, if_true, reduceCtorEq, if_false] <;> omega
  · rw [serialWrite_ok (by omega)]
    rw [List.take_zero, List.nil_append, List.drop_of_length_le (by omega), List.append_nil]

/-- Dimensions and tile are `size_t` values, and the offsets of Pegasus are an array of six numbers below 6 for each orientation. -/
def Machine : Topo → Prop
  | .chimera m n t => m < 2 ^ 64 ∧ n < 2 ^ 64 ∧ t < 2 ^ 64
  | .pegasus _ off => ∀ u i, off u i < 6 ∧ (6 ≤ i → off u i = 0)
  | .zephyr d t => 2 * d + 1 < 2 ^ 64 ∧ 2 * t < 2 ^ 64

/-- C53, no collisions within a family: from the bytes written for a graph, together with the name of its family, its dimensions, offsets and masks can be read off, and but for Pegasus the seed. -/
theorem C53_injective (hG : WFGraph T nodes edges) (hG' : WFGraph T' nodes' edges') (hT : Machine T) (hT' : Machine T') (hf : T.family = T'.family)
    (hM : buildMasks T nodes edges = .ok M) (hM' : buildMasks T' nodes' edges' = .ok M') (h : (serialFields T seed M).flatten = (serialFields T' seed' M').flatten) :
    T = T' ∧ M = M' ∧ (T.family ≠ .pegasus → seed = seed') := by
  obtain ⟨_, e1, r⟩ := buildMasks_ok hG
  rw [hM] at e1; cases e1
  obtain ⟨_, e1, r'⟩ := buildMasks_ok hG'
  rw [hM'] at e1; cases e1
  cases T with
  | chimera m n t =>
    cases T' with
    | chimera m' n' t' =>
      obtain ⟨a, b, c⟩ := hT
      obtain ⟨a', b', c'⟩ := hT'
      obtain ⟨rfl, rfl, rfl, rfl, rfl⟩ := fields_inj a b c a' b' c' r.nodeLen r.edgeLen r'.nodeLen r'.edgeLen h
      exact ⟨rfl, rfl, fun _ => rfl⟩
    | pegasus _ _ => cases hf
    | zephyr _ _ => cases hf
  | zephyr d t =>
    cases T' with
    | zephyr d' t' =>
      obtain ⟨a, c⟩ := hT
      obtain ⟨a', c'⟩ := hT'
      obtain ⟨e1, -, e2, rfl, rfl⟩ := fields_inj a a c a' a' c' r.nodeLen r.edgeLen r'.nodeLen r'.edgeLen h
      obtain rfl : d = d' := by omega
      obtain rfl : t = t' := by omega
      exact ⟨rfl, rfl, fun _ => rfl⟩
    | pegasus _ _ => cases hf
    | chimera _ _ _ => cases hf
  | pegasus d off =>
    cases T' with
    | pegasus d' off' =>
      have hd : d = d' := by
        have hl := congrArg List.length h
        simp only [serialFields, List.flatten_cons, List.flatten_nil, List.append_nil, List.length_append, offsetBytes_length, r.nodeLen, r.edgeLen, r.badLen, r'.nodeLen, r'.edgeLen, r'.badLen] at hl
        exact pegasus_dim hl
      subst hd
      simp only [serialFields, List.flatten_cons, List.flatten_nil, List.append_nil] at h
      obtain ⟨h1, h2⟩ := List.append_inj h (by rw [offsetBytes_length, offsetBytes_length])
      obtain ⟨f1, f2, f3⟩ := append3_inj h2 (by rw [r.nodeLen, r'.nodeLen]; rfl) (by rw [r.edgeLen, r'.edgeLen]; rfl)
      have ho : off = off' := by
        funext u i
        by_cases hi : i < 6
        · exact offsetBytes_inj (fun u i => by have := (hT u i).1; omega) (fun u i => by have := (hT' u i).1; omega) h1 u i hi
        · rw [(hT u i).2 (by omega), (hT' u i).2 (by omega)]
      subst ho
      obtain ⟨n, e, b⟩ := M
      obtain ⟨n', e', b'⟩ := M'
      simp only at f1 f2 f3
      subst f1 f2 f3
      exact ⟨rfl, rfl, fun hne => absurd rfl hne⟩
    | chimera _ _ _ => cases hf
    | zephyr _ _ => cases hf

/-- The same qubits, and the same couplers apart from odd ones. -/
structure SameButOdd (T : Topo) (nodes : List Nat) (edges : List (Nat × Nat)) (nodes' : List Nat) (edges' : List (Nat × Nat)) : Prop where
  nodes : ∀ q, q ∈ nodes ↔ q ∈ nodes'
  couplers : ∀ p q, ¬OddCoupled T p q → ¬OddCoupled T q p → (Coupler edges p q ↔ Coupler edges' p q)

theorem sameButOdd_of_masks (hG : WFGraph T nodes edges) (hG' : WFGraph T nodes' edges') (hM : buildMasks T nodes edges = .ok M) (hM' : buildMasks T nodes' edges' = .ok M) : SameButOdd T nodes edges nodes' edges' := by
  obtain ⟨_, e1, r⟩ := buildMasks_ok hG
  rw [hM] at e1; cases e1
  obtain ⟨_, e1, r'⟩ := buildMasks_ok hG'
  rw [hM'] at e1; cases e1
  have key : ∀ {nodes nodes' : List Nat} {edges edges' : List (Nat × Nat)}, WFGraph T nodes edges → WFGraph T nodes' edges' → Rep T M (Has T nodes) (Joint T nodes edges) (Missing T nodes edges) →
      Rep T M (Has T nodes') (Joint T nodes' edges') (Missing T nodes' edges') → ∀ p q, ¬OddCoupled T p q → ¬OddCoupled T q p → Coupler edges p q → Coupler edges' p q := by
    intro nodes nodes' edges edges' hG hG' r r' p q h1 h2 hc
    have hco : Coupled T p q ∨ Coupled T q p := by
      rcases hc with hc | hc
      · exact hG.coupled _ hc
      · exact (hG.coupled _ hc).symm
    rcases hco with hco | hco
    · exact edges_of_masks hG hG' r r' hco hc h1
    · exact Or.symm (edges_of_masks hG hG' r r' hco (Or.symm hc) h2)
  exact ⟨fun q => ⟨nodes_of_masks hG hG' r r', nodes_of_masks hG' hG r' r⟩, fun p q h1 h2 => ⟨key hG hG' r r' p q h1 h2, key hG' hG r' r p q h1 h2⟩⟩

/-- C64, except for what `C64_odd` and `C64_families` refute: two graphs of one family with the same identifier are in the same lattice, have the same qubits, and the same couplers apart from odd ones. -/
theorem C64_partial (hG : WFGraph T nodes edges) (hG' : WFGraph T' nodes' edges') (hT : Machine T) (hT' : Machine T') (hf : T.family = T'.family) {junk junk' : Nat → List Byte} (hj : ∀ n, (junk n).length = n) (hj' : ∀ n, (junk' n).length = n)
    {id : List Byte} (h : graphId junk T seed nodes edges = .ok id) (h' : graphId junk' T' seed' nodes' edges' = .ok id) :
    T = T' ∧ SameButOdd T nodes edges nodes' edges' := by
  obtain ⟨M, e, _⟩ := buildMasks_ok hG
  obtain ⟨M', e', _⟩ := buildMasks_ok hG'
  simp only [graphId, e, e', bind, Except.bind, identifier_ok hj, identifier_ok hj', Except.ok.injEq] at h h'
  obtain ⟨rfl, rfl, _⟩ := C53_injective hG hG' hT hT' hf e e' (h.trans h'.symm)
  exact ⟨rfl, sameButOdd_of_masks hG hG' e e'⟩

/-- Chimera graphs have no odd couplers: there C64 holds in full. -/
theorem C64_chimera {m n t m' n' t' : Nat} (hG : WFGraph (.chimera m n t) nodes edges) (hG' : WFGraph (.chimera m' n' t') nodes' edges') (hT : Machine (.chimera m n t)) (hT' : Machine (.chimera m' n' t'))
    {junk junk' : Nat → List Byte} (hj : ∀ n, (junk n).length = n) (hj' : ∀ n, (junk' n).length = n)
    {id : List Byte} (h : graphId junk (.chimera m n t) seed nodes edges = .ok id)
    (h' : graphId junk' (.chimera m' n' t') seed' nodes' edges' = .ok id) :
    m = m' ∧ n = n' ∧ t = t' ∧ (∀ q, q ∈ nodes ↔ q ∈ nodes') ∧ ∀ p q, Coupler edges p q ↔ Coupler edges' p q := by
  obtain ⟨e, h⟩ := C64_partial hG hG' hT hT' rfl hj hj' h h'
  cases e
  exact ⟨rfl, rfl, rfl, h.nodes, fun p q => h.couplers p q (fun h => h) (fun h => h)⟩

/-- C64 is false of the code in Pegasus and Zephyr: whether an odd coupler is there makes no difference to the identifier. -/
theorem C64_odd {p q : Nat} (h : OddCoupled T p q) {e : Nat × Nat} (he : e = (p, q) ∨ e = (q, p)) (junk : Nat → List Byte) (nodes : List Nat) (l l' : List (Nat × Nat)) :
    graphId junk T seed nodes (l ++ e :: l') = graphId junk T seed nodes (l ++ l') := by
  rw [graphId, graphId, buildMasks_odd h he]
end

/-- The result of `topology_identifier` does not tell the families apart either: a Zephyr graph of one qubit and a Chimera graph of two joined qubits have the same one. -/
theorem C64_families : WFGraph (.zephyr 1 1) [0] [] ∧ WFGraph (.chimera 3 3 2) [0, 12] [(0, 12)] ∧ ∃ M, buildMasks (.zephyr 1 1) [0] [] = .ok M ∧ buildMasks (.chimera 3 3 2) [0, 12] [(0, 12)] = .ok M ∧
    ∀ seed, (serialFields (.zephyr 1 1) seed M) = (serialFields (.chimera 3 3 2) seed M) := by
  refine ⟨⟨show 1 ≤ 4 by decide, ?_, by decide, by simp⟩, ⟨show 2 ≤ 8 by decide, ?_, by decide, ?_⟩, _, of_toOption (a := (buildMasks (.zephyr 1 1) [0] []).toOption.get (by decide +kernel)) (by decide +kernel), of_toOption (by decide +kernel), fun _ => rfl⟩
  · have : ∀ q ∈ [0], q < 12 := by decide
    exact this
  · have : ∀ q ∈ [0, 12], q < 36 := by decide
    exact this
  · intro e he
    rw [List.mem_singleton] at he
    subst he
    exact .inl (.vertical (y := 0) (x := 0) (k := 0) (by decide) (by decide) (by decide))

/-- A graph that a `busgraph_cache` is made for, with the numbers its search draws, and what memory held before the identifier was written. -/
structure Asked where
  T : Topo
  seed : BitVec 64
  nodes : List Nat
  edges : List (Nat × Nat)
  bound : Nat
  D : Draws
  D' : Draws
  junk : Nat → List Byte

/-- A graph of one of the lattices, and the rest as on a machine. -/
structure Asked.Ok (a : Asked) : Prop where
  graph : WFGraph a.T a.nodes a.edges
  machine : Machine a.T
  bound : 0 < a.bound
  draws : a.D.Perm
  draws' : a.D'.Perm
  junk : ∀ n, (a.junk n).length = n

/-- `_fetch_cache('clique', self._graph.cliques)` (busclique.pyx 170-179, 463-464): what is asked of the cache on disk. -/
def Asked.request (a : Asked) : B (Req (Family × BitVec 64) (List Byte) Cache.Cliques) := do
  let id ← graphId a.junk a.T a.seed a.nodes a.edges
  let embs ← bestCliques a.T a.bound a.D a.D' a.nodes a.edges
  pure ⟨id, shortCode a.T id, false, some (Cache.make embs)⟩

theorem Asked.request_ok {a : Asked} (h : a.Ok) : ∃ id embs, a.request = .ok ⟨id, shortCode a.T id, false, some (Cache.make embs)⟩ ∧ graphId a.junk a.T a.seed a.nodes a.edges = .ok id ∧
    bestCliques a.T a.bound a.D a.D' a.nodes a.edges = .ok embs ∧ ∀ e ∈ embs, CliqueEmbedding a.nodes a.edges e := by
  obtain ⟨M, e, _⟩ := buildMasks_ok h.graph
  obtain ⟨_, embs, _, _, h1, h2, _⟩ := bestCliques_ok h.graph h.bound h.draws h.draws'
  have h0 : graphId a.junk a.T a.seed a.nodes a.edges = .ok (serialFields a.T a.seed M).flatten := by
    simp only [graphId, e, bind, Except.bind, identifier_ok h.junk]
  refine ⟨_, embs, ?_, h0, h1, ?_⟩
  · simp only [Asked.request, h0, h1, bind, Except.bind, pure, Except.pure]
  · intro e he
    obtain ⟨i, hi, hg⟩ := List.getElem_of_mem he
    exact (h2 i e (by rw [List.getElem?_eq_getElem hi, hg])).1

theorem cliqueEmbedding_mono {nodes nodes' : List Nat} {edges edges' : List (Nat × Nat)} (hn : ∀ q ∈ nodes, q ∈ nodes') (he : ∀ p q, Coupler edges p q → Coupler edges' p q) {emb : List (List Nat)}
    (h : CliqueEmbedding nodes edges emb) : CliqueEmbedding nodes' edges' emb := by
  refine ⟨fun c hc => ?_, h.disjoint, h.adjacent.imp fun ⟨p, hp, q, hq, hc⟩ => ⟨p, hp, q, hq, he p q hc⟩⟩
  have := h.chains c hc
  exact ⟨this.nonempty, fun q hq => hn q (this.qubits q hq), fun p hp q hq => Relation.ReflTransGen.mono (fun a b hab => ⟨hab.1, hab.2.1, he a b hab.2.2⟩) p q (this.connected p hp q hq)⟩

/-- C65, except for what `C65_stale` refutes: calls one after another, some of them killed (but not while they evict), each for one of the graphs `as`. Every call that is not killed gets a cache, and asking it for a clique on any
node labels gives valid chains, one for each label, or nothing. They are valid in one of the graphs `as`, which has the same qubits as the graph `a` the call was made for, and the same couplers apart from odd ones. -/
theorem C65_partial {limit : Nat} (hlim : 0 < limit) {as : List Asked} (hok : ∀ a ∈ as, a.Ok) {h : List (Req (Family × BitVec 64) (List Byte) Cache.Cliques × Option Nat)}
    (hr : ∀ q ∈ h, ∃ b ∈ as, b.request = .ok q.1) (hq : NotEvicting limit h Dir.empty) {a : Asked} (ha : a ∈ as) {r : Req (Family × BitVec 64) (List Byte) Cache.Cliques} (har : a.request = .ok r) {x : Except Exn Cache.Cliques}
    (hx : (r, x) ∈ history limit h Dir.empty) :
    ∃ c, x = .ok c ∧ ∃ b ∈ as, b.T = a.T ∧ SameButOdd a.T a.nodes a.edges b.nodes b.edges ∧
      ∀ {α : Type} (names : List α), ∃ e, Cache.find c names = .ok (names.zip e) ∧ (e = [] ∨ names.length ≤ e.length) ∧ CliqueEmbedding b.nodes b.edges e := by
  obtain ⟨id, embs, q1, q2, q3, q4⟩ := a.request_ok (hok a ha)
  rw [har] at q1; cases q1
  rcases C40_partial hlim hq _ hx with ⟨c, rfl, q, hq, hc, hi, hv⟩ | ⟨_, hn⟩
  · refine ⟨c, rfl, ?_⟩
    obtain ⟨b, hb, hbq⟩ := hr q hq
    obtain ⟨id', embs', p1, p2, p3, p4⟩ := b.request_ok (hok b hb)
    obtain ⟨q, o⟩ := q
    simp only at hbq hc hi hv
    rw [hbq] at p1
    cases p1
    simp only [Option.some.injEq] at hc hi hv
    subst hv hi
    have hf : a.T.family = b.T.family := (congrArg Prod.fst hc).symm
    obtain ⟨e, hs⟩ := C64_partial (hok a ha).graph (hok b hb).graph (hok a ha).machine (hok b hb).machine hf (hok a ha).junk (hok b hb).junk q2 p2
    refine ⟨b, hb, e.symm, hs, fun names => ?_⟩
    rcases C35_find embs' names with ⟨i, e, h1, h2, _, h3⟩ | ⟨_, h3⟩
    · exact ⟨e, h3, .inr h2, p4 e (List.mem_of_getElem? h1)⟩
    · exact ⟨[], by rw [h3, List.zip_nil_right], .inl rfl, ⟨by simp, .nil, .nil⟩⟩
  · cases hn

/-- In Chimera C65 holds in full (with kills anywhere but while evicting): the chains are valid in the graph that the call was made for. -/
theorem C65_chimera {limit : Nat} (hlim : 0 < limit) {as : List Asked} (hok : ∀ a ∈ as, a.Ok) {h : List (Req (Family × BitVec 64) (List Byte) Cache.Cliques × Option Nat)}
    (hr : ∀ q ∈ h, ∃ b ∈ as, b.request = .ok q.1) (hq : NotEvicting limit h Dir.empty) {a : Asked} (ha : a ∈ as) (hT : a.T.family = .chimera) {r : Req (Family × BitVec 64) (List Byte) Cache.Cliques} (har : a.request = .ok r)
    {x : Except Exn Cache.Cliques} (hx : (r, x) ∈ history limit h Dir.empty) :
    ∃ c, x = .ok c ∧ ∀ {α : Type} (names : List α), ∃ e, Cache.find c names = .ok (names.zip e) ∧ (e = [] ∨ names.length ≤ e.length) ∧ CliqueEmbedding a.nodes a.edges e := by
  obtain ⟨c, hc, b, hb, he, hs, hn⟩ := C65_partial hlim hok hr hq ha har hx
  have hodd : ∀ p q, ¬OddCoupled a.T p q := by
    intro p q ho
    cases hT' : a.T with
    | chimera _ _ _ => rw [hT'] at ho; exact ho
    | pegasus _ _ => rw [hT'] at hT; cases hT
    | zephyr _ _ => rw [hT'] at hT; cases hT
  refine ⟨c, hc, fun names => ?_⟩
  obtain ⟨e, h1, h2, h3⟩ := hn names
  exact ⟨e, h1, h2, cliqueEmbedding_mono (fun q => (hs.nodes q).mpr) (fun p q => (hs.couplers p q (hodd p q) (hodd q p)).mpr) h3⟩

/-- Three qubits of `zephyr_graph(1, 1)` with all couplers between them. -/
def triangle : Asked := ⟨.zephyr 1 1, 0, [0, 1, 8], [(0, 1), (0, 8), (1, 8)], 64, revDraws, revDraws, fun n => List.replicate n 0⟩

/-- The same without the odd coupler. -/
def path : Asked := { triangle with edges := [(0, 8), (1, 8)] }

theorem triangle_ok : triangle.Ok := by
  refine ⟨⟨show 1 ≤ 4 by decide, ?_, by decide, ?_⟩, ⟨by decide, by decide⟩, by decide, revDraws_perm, revDraws_perm, fun n => List.length_replicate⟩
  · have : ∀ q ∈ [0, 1, 8], q < 12 := by decide
    exact this
  · have : ∀ e ∈ [(0, 1), (0, 8), (1, 8)], e ∈ zephyrEdges 1 1 := by decide +kernel
    exact fun e he => .inl (zephyrEdges_coupled (this e he))

theorem path_ok : path.Ok := by
  refine ⟨⟨show 1 ≤ 4 by decide, ?_, by decide, ?_⟩, ⟨by decide, by decide⟩, by decide, revDraws_perm, revDraws_perm, fun n => List.length_replicate⟩
  · have : ∀ q ∈ [0, 1, 8], q < 12 := by decide
    exact this
  · have : ∀ e ∈ [(0, 8), (1, 8)], e ∈ zephyrEdges 1 1 := by decide +kernel
    exact fun e he => .inl (zephyrEdges_coupled (this e he))

/-- C65 is false of the code: the cache of a graph with a triangle is then used for the graph without the odd coupler, and the clique on three nodes it gives is not one there. -/
theorem C65_stale : triangle.Ok ∧ path.Ok ∧ ∃ r r' c, triangle.request = .ok r ∧ path.request = .ok r' ∧ (execAll 100 [r, r'] Dir.empty).1 = [.ok c, .ok c] ∧
    Cache.find c ["x", "y", "z"] = .ok [("x", [1]), ("y", [8]), ("z", [0])] ∧ ¬CliqueEmbedding path.nodes path.edges [[1], [8], [0]] := by
  refine ⟨triangle_ok, path_ok, ?_⟩
  obtain ⟨id, embs, q1, q2, q3, q4⟩ := triangle.request_ok triangle_ok
  obtain ⟨id', embs', p1, p2, p3, p4⟩ := path.request_ok path_ok
  have hid : id = id' := by
    have := C64_odd (T := .zephyr 1 1) (seed := 0) (p := 0) (q := 1) ⟨0, 0, 0, 0, 0, by decide, by decide, by decide, by decide, by decide, .inl rfl, rfl, rfl⟩ (.inl rfl) (fun n => List.replicate n 0) [0, 1, 8] [] [(0, 8), (1, 8)]
    have h1 : graphId (fun n => List.replicate n 0) (.zephyr 1 1) 0 [0, 1, 8] ([] ++ (0, 1) :: [(0, 8), (1, 8)]) = .ok id := q2
    have h2 : graphId (fun n => List.replicate n 0) (.zephyr 1 1) 0 [0, 1, 8] ([] ++ [(0, 8), (1, 8)]) = .ok id' := p2
    rw [this, h2] at h1
    cases h1; rfl
  subst hid
  have he : embs = [[], [[1], [8], [0]], [[0, 8]], [], []] := by
    have : bestCliques triangle.T triangle.bound triangle.D triangle.D' triangle.nodes triangle.edges = .ok [[], [[1], [8], [0]], [[0, 8]], [], []] := of_toOption (by decide +kernel)
    rw [q3] at this
    cases this; rfl
  subst he
  refine ⟨_, _, Cache.make [[], [[1], [8], [0]], [[0, 8]], [], []], q1, p1, ?_, of_toOption (by decide +kernel), fun h => ?_⟩
  · exact (C42_results (by decide) _).trans (by simp [serveAll, serve, held, keep, Cache.dget, Cache.dset, show path.T = triangle.T from rfl])
  · have := (List.pairwise_cons.mp h.adjacent).1 [0] (by simp)
    obtain ⟨p, hp, q, hq, hc⟩ := this
    rw [List.mem_singleton] at hp hq
    subst hp hq
    revert hc
    simp [Coupler, path, triangle]

/-- A repeated request in a Chimera graph gets the cache of the first one. -/
example : ∃ a : Asked, a.Ok ∧ a.T.family = .chimera ∧ ∃ r, a.request = .ok r ∧ ∃ x, (r, x) ∈ history 100 [(r, none), (r, none)] Dir.empty ∧ NotEvicting 100 [(r, none), (r, none)] Dir.empty := by
  have hok : Asked.Ok ⟨.chimera 2 2 2, 0, gridNodes, gridEdges, 64, revDraws, revDraws, fun n => List.replicate n 0⟩ :=
    ⟨grid_wf, ⟨by decide, by decide, by decide⟩, by decide, revDraws_perm, revDraws_perm, fun n => List.length_replicate⟩
  obtain ⟨id, embs, h, -⟩ := Asked.request_ok hok
  exact ⟨_, hok, rfl, _, h, _, List.mem_cons_self, trivial⟩

/-- Sizes: a Zephyr graph of a 3 × 3 grid with shores of 2 takes 104 bytes. -/
example : ∃ M, buildMasks (.zephyr 1 1) [0, 1, 8] [(0, 1), (0, 8), (1, 8)] = .ok M ∧ serialSize (serialFields (.zephyr 1 1) 0 M) = 104 := by
  obtain ⟨M, h, e, _⟩ := C53_size triangle_ok.graph 0
  exact ⟨M, h, e⟩

/-- Two different Zephyr graphs that meet the hypotheses of `C64_partial`. -/
example : ∃ id, graphId triangle.junk triangle.T triangle.seed triangle.nodes triangle.edges = .ok id ∧ graphId path.junk path.T path.seed path.nodes path.edges = .ok id := by
  obtain ⟨_, _, r, r', c, _⟩ := C65_stale
  obtain ⟨id, _, _, h, _⟩ := triangle.request_ok triangle_ok
  refine ⟨id, h, ?_⟩
  rw [← h]
  exact (C64_odd (T := .zephyr 1 1) (seed := 0) (p := 0) (q := 1) ⟨0, 0, 0, 0, 0, by decide, by decide, by decide, by decide, by decide, .inl rfl, rfl, rfl⟩ (.inl rfl) (fun n => List.replicate n 0) [0, 1, 8] [] [(0, 8), (1, 8)]).symm

end MM
