import Verif.Py.CallInv
import Verif.Py.DiagInv
import Verif.Props.Demo
import Verif.Props.Diagnose

/-! C24, C25 and what C01 and C11 mean for a Python caller. -/

namespace MM

open Py
open Spec.Py (inputGraph MinorUpTo MinorEmbedding)
open Scratch (Cfg)

variable {α : Type} [DecidableEq α]

/-! ### C24 -/

/-- **C24.** Reading a graph: the two directions of the dictionary are inverse to each other, no label has two numbers,
the labels are numbered in order of first appearance (edges first, then the list of nodes), every node of the graph is
among them, and two numbers are joined by an edge exactly if their labels are; a node without any edge gets a
self-loop. -/
theorem C24_reading_a_graph (edges : List (α × α)) (nodes : Option (List α)) :
    let X := LGraph.read edges nodes
    X.L.label.Nodup ∧ (∀ a k, X.L.idx a = some k ↔ X.L.label[k]? = some a) ∧
    FirstOrder ((edges.flatMap fun e => [e.1, e.2]) ++ nodes.elim [] id) X.L.label ∧
    (∀ a, a ∈ X.L.label ↔ a ∈ (inputGraph edges nodes).nodes) ∧
    X.g.n = X.L.label.length ∧
    ∀ a b i j, X.L.idx a = some i → X.L.idx b = some j →
      (X.g.Edge i j ↔ (inputGraph edges nodes).Adj a b ∨ a = b ∧ ∀ c, ¬ (inputGraph edges nodes).Adj a c) := by
  obtain ⟨iso, h1, h2, h3⟩ := LGraph.read_spec edges nodes
  refine ⟨h1.wf.nodup, h1.wf.idx, h3, fun a => by rw [mem_inputGraph, h3.mem], h1.n, ?_⟩
  intro a b i j ha hb
  have hlone : ∀ a, (∀ c, ¬ (inputGraph edges nodes).Adj a c) ↔ ∀ e ∈ edges, a ≠ e.1 ∧ a ≠ e.2 := by
    intro a
    constructor
    · intro h e he
      constructor
      · rintro rfl; exact h e.2 (.inl he)
      · rintro rfl; exact h e.1 (.inr he)
    · rintro h c (hc | hc)
      · exact (h _ hc).1 rfl
      · exact (h _ hc).2 rfl
  constructor
  · intro he
    have key : ∀ x y, (x, y) ∈ edges ++ iso.map (fun a => (a, a)) → (x, y) ∈ edges ∨ x = y ∧ x ∈ iso := by
      intro x y h
      rcases List.mem_append.mp h with h | h
      · exact .inl h
      · obtain ⟨z, hz, hzz⟩ := List.mem_map.mp h
        cases hzz
        exact .inr ⟨rfl, hz⟩
    rcases h1.edge_back ha hb he with h | h
    · rcases key _ _ h with h | ⟨hab, h⟩
      · exact .inl (.inl h)
      · exact .inr ⟨hab, (hlone _).mpr ((h2 _).mp h).1⟩
    · rcases key _ _ h with h | ⟨hab, h⟩
      · exact .inl (.inr h)
      · rw [hab] at h
        exact .inr ⟨hab.symm, (hlone _).mpr ((h2 _).mp h).1⟩
  · rintro (h | ⟨rfl, h⟩)
    · apply h1.edge_of ha hb
      rcases h with h | h
      · exact .inl (List.mem_append_left _ h)
      · exact .inr (List.mem_append_left _ h)
    · have hl := (hlone a).mp h
      have hm : a ∈ (LGraph.read edges nodes).L.label := (h1.wf.has_iff a).mp (by unfold LabelDict.has; simp [ha])
      have hiso : a ∈ iso := by
        obtain ⟨e, he, hae⟩ := (h1.mem a).mp hm
        rcases List.mem_append.mp he with he | he
        · rcases hae with hae | hae
          · exact absurd hae (hl e he).1
          · exact absurd hae (hl e he).2
        · obtain ⟨z, hz, hzz⟩ := List.mem_map.mp he
          subst hzz
          rcases hae with rfl | rfl <;> exact hz
      exact h1.edge_of ha hb (.inl (List.mem_append_right _ (List.mem_map.mpr ⟨a, hiso, rfl⟩)))

/-- **C24.** Looking labels up again, known ones or new ones, changes no number given before. -/
theorem C24_numbers_stay (edges : List (α × α)) (nodes : Option (List α)) (more : List (α × α)) :
    let X := LGraph.read edges nodes
    let Y := more.foldl (fun X e => X.push e.1 e.2) X
    (∀ a k, X.L.idx a = some k → Y.L.idx a = some k ∧ (Y.L.get a).2 = k ∧ (Y.L.get a).1 = Y.L) ∧
    ∀ (k : Nat) (a : α), X.L.label[k]? = some a → Y.L.label[k]? = some a := by
  obtain ⟨iso, h1, h2, h3⟩ := LGraph.read_spec edges nodes
  have hp := h1.pushes more
  have hk : ∀ a k, (LGraph.read edges nodes).L.idx a = some k →
      (more.foldl (fun X e => X.push e.1 e.2) (LGraph.read edges nodes)).L.idx a = some k := hp.2.1
  refine ⟨?_, ?_⟩
  · intro a k ha
    have h := hk a k ha
    refine ⟨h, ?_, ?_⟩ <;> (unfold LabelDict.get; rw [h])
  · intro k a ha
    exact (hp.1.wf.idx a k).mp (hk a k ((h1.wf.idx a k).mpr ha))

example : let X := LGraph.read [("c", "a"), ("a", "b"), ("c", "b")] (some ["a", "b", "c", "d"])
    X.L.label = ["c", "a", "b", "d"] ∧ X.L.idx "b" = some 2 ∧ X.g.edges = [(0, 1), (1, 2), (0, 2), (3, 3)] := by
  decide +kernel

/-! ### C01 and C11 for Python callers -/

/-- What a caller takes for success: the flag if overlaps are returned, a dict that is not empty otherwise. -/
def Py.Result.Success (r : Result α) : Prop := r.flag = some true ∨ r.flag = none ∧ r.dict ≠ []

variable {pin : α → Nat → α} {sort : List (List Nat) → List (List Nat)}

/-- **C01, for Python callers.** If `find_embedding` reports success, its dict is a minor embedding of the source graph
in the target graph: a non-empty connected chain of target nodes for every source node, chains disjoint and every source
edge realised. Connectedness of fixed chains and edges between fixed nodes are up to the caller. -/
theorem C01_dict_is_minor_embedding (hs : SortOK sort) (a : Args α) (hA : a.OK) (hr : a.restr = [])
    (C : Cfg) (A : Params) (ro : Bool) (t : Tape) (r : Result α) (h : call pin sort C A ro a t = .ok r)
    (hok : r.Success) : MinorUpTo a.Fix a.src a.tgt r.chain := by
  by_cases hne : a.src.nodes = []
  · refine ⟨?_, ?_, ?_, ?_, ?_⟩ <;> try (rw [hne]; intro x hx; cases hx)
    intro x y hxy
    have hw := inputGraph_wf a.srcE a.srcN
    have : x ∈ a.src.nodes := by
      rcases hxy with h | h
      · exact (hw.ends _ h).1
      · exact (hw.ends _ h).2
    rw [hne] at this
    cases this
  · obtain ⟨P, S0, T0, isoS, isoT, fx, ok, cs, X, hI, hrn, hf, hflag, hL, _, _⟩ := call_spec hs hA hr h hne
    have : ok = true := by
      rcases hok with h | ⟨h, hd⟩
      · rw [hflag] at h
        split at h
        · simpa using h
        · cases h
      · cases ok with
        | true => rfl
        | false =>
          exfalso
          rw [hflag] at h
          split at h
          · cases h
          · rename_i hro
            have hro : ro = false := by simpa using hro
            have hc := ((C11_result_contract hs hI (Input.compatible_of_nil hrn) C A ro false t cs hf).1 hro).mpr rfl
            have := hL.keys
            rw [if_pos hc] at this
            exact hd (by simpa using this)
    subst this
    exact X.minor hA hrn hs hf hL

/-- Without fixed chains, `is_valid_embedding` says `True` of every dict `find_embedding` reports as a success. -/
theorem C01_dict_passes_is_valid_embedding (hs : SortOK sort) (a : Args α) (hA : a.OK) (hr : a.restr = []) (hfx : a.fixed = [])
    (C : Cfg) (A : Params) (ro : Bool) (t : Tape) (r : Result α) (h : call pin sort C A ro a t = .ok r)
    (hok : r.Success) (ordQ ordX : List α → List α) (hQ : ∀ l, (ordQ l).Perm l) (hX : ∀ l, (ordX l).Perm l) :
    isValid ordQ ordX r.chain a.src a.tgt = true := by
  have h1 := C01_dict_is_minor_embedding hs a hA hr C A ro t r h hok
  rw [C27_is_valid hQ hX a.src a.tgt (inputGraph_wf _ _) (inputGraph_wf _ _)]
  have hno : ∀ x, ¬ a.Fix x := by
    rintro x ⟨e, he, _⟩
    rw [hfx] at he
    cases he
  exact ⟨h1.chain, h1.nodes, fun x hx => h1.linked x hx (hno x), h1.disjoint, fun x y h2 h3 => h1.edges x y h2 h3 (fun h => hno x h.1)⟩

/-- **C11, for Python callers.** The keys of the dict are all the source nodes, in the order of their first appearance,
or there are none; all chains are made of target nodes given by the caller. There is a flag exactly if it was asked for;
without it, the dict is empty exactly if nothing was found. (All for a source graph with at least one node.) -/
theorem C11_dict_contract (hs : SortOK sort) (a : Args α) (hA : a.OK) (hr : a.restr = [])
    (C : Cfg) (A : Params) (ro : Bool) (t : Tape) (r : Result α) (h : call pin sort C A ro a t = .ok r) (hne : a.src.nodes ≠ []) :
    (r.dict = [] ∨ (r.dict.map Prod.fst).Nodup ∧
      FirstOrder ((a.srcE.flatMap fun e => [e.1, e.2]) ++ a.srcN.elim [] id) (r.dict.map Prod.fst)) ∧
    (∀ x c, r.chain x = some c → x ∈ a.src.nodes ∧ ∀ q ∈ c, q ∈ a.tgt.nodes) ∧
    (r.flag.isSome ↔ ro = true) ∧ (ro = true → r.dict ≠ []) := by
  obtain ⟨P, S0, T0, isoS, isoT, fx, ok, cs, X, hI, hrn, hf, hflag, hL, hn, _⟩ := call_spec hs hA hr h hne
  have hk := hL.keys
  refine ⟨?_, ?_, ?_, ?_⟩
  · by_cases hcs : cs = []
    · rw [if_pos hcs] at hk
      exact .inl (by simpa using hk)
    · rw [if_neg hcs] at hk
      right
      rw [hk]
      exact ⟨X.rS.rep.wf.nodup, X.rS.first⟩
  · intro x c hc
    by_cases hcs : cs = []
    · rw [if_pos hcs] at hk
      have : r.dict = [] := by simpa using hk
      unfold Result.chain at hc
      rw [this] at hc
      cases hc
    · rw [if_neg hcs] at hk
      have hmem : (x, c) ∈ r.dict := (lookup_eq_some (by rw [hk]; exact X.rS.rep.wf.nodup)).mp hc
      have hx : x ∈ S0.L.label := by rw [← hk]; exact List.mem_map.mpr ⟨_, hmem, rfl⟩
      refine ⟨(X.memS x).mp hx, ?_⟩
      obtain ⟨u, hu, _⟩ := X.rS.rep.idx_of_mem hx
      obtain ⟨cu, ls, h1, h2, h3⟩ := hL.chain hcs x u hu
      rw [hc] at h2
      cases h2
      intro q hq
      obtain ⟨z, hz, hqz⟩ := (mem_of_forall X.inv.T.wf h3 q).mp hq
      exact (X.memT q).mp (X.nodes hA hrn hs hf hu h1 hz hqz)
  · rw [hflag]
    cases ro <;> simp
  · intro hro hd
    have h11 := C11_result_contract hs hI (Input.compatible_of_nil hrn) C A ro ok t cs hf
    have hlen := h11.2.1 (.inr hro)
    have hpos := hI.src_pos
    have hcs : cs ≠ [] := by rintro rfl; simp at hlen; omega
    rw [if_neg hcs, hd] at hk
    exact X.neS hk.symm

/-! ### C25 -/

/-- **C25.** If `find_embedding` reports success, the chain of each suspended node that is not fixed meets every one of
its blobs that is not empty, every chain consists of target nodes of the caller, and the keys are source nodes of the
caller: the auxiliary nodes do not show. -/
theorem C25_suspended_chains (hs : SortOK sort) (a : Args α) (hA : a.OK) (hr : a.restr = [])
    (C : Cfg) (A : Params) (ro : Bool) (t : Tape) (r : Result α) (h : call pin sort C A ro a t = .ok r)
    (hok : r.Success) :
    (∀ v blobs, (v, blobs) ∈ a.suspend → v ∈ a.src.nodes → ¬ a.Fix v → ∀ blob ∈ blobs, blob ≠ [] →
      ∃ c, r.chain v = some c ∧ ∃ q ∈ c, q ∈ blob) ∧
    ∀ x c, r.chain x = some c → x ∈ a.src.nodes ∧ ∀ q ∈ c, q ∈ a.tgt.nodes := by
  by_cases hne : a.src.nodes = []
  · constructor
    · intro v blobs _ hv
      rw [hne] at hv
      cases hv
    intro x c hc
    exfalso
    have hread : (LGraph.read a.srcE a.srcN).L.label = [] := by
      obtain ⟨iso, h1, h2, h3⟩ := LGraph.read_spec a.srcE a.srcN
      rw [List.eq_nil_iff_forall_not_mem]
      intro y hy
      have : y ∈ a.src.nodes := by unfold Args.src; rw [mem_inputGraph, ← h3.mem]; exact hy
      rw [hne] at this
      cases this
    unfold call Args.parse at h
    dsimp only at h
    rw [if_pos hread] at h
    cases h
    cases hc
  · refine ⟨?_, fun x c => (C11_dict_contract hs a hA hr C A ro t r h hne).2.1 x c⟩
    intro v blobs hmem hv hfix blob hb hbne
    obtain ⟨P, S0, T0, isoS, isoT, fx, ok, cs, X, hI, hrn, hf, hflag, hL, _, _⟩ := call_spec hs hA hr h hne
    have : ok = true := by
      cases ok with
      | true => rfl
      | false =>
        exfalso
        have h1 := C01_dict_is_minor_embedding hs a hA hr C A ro t r h hok
        rcases hok with h' | ⟨h', hd⟩
        · rw [hflag] at h'
          split at h' <;> simp at h'
        · rw [hflag] at h'
          split at h'
          · cases h'
          · rename_i hro
            have hro : ro = false := by simpa using hro
            have hc := ((C11_result_contract hs hI (Input.compatible_of_nil hrn) C A ro false t cs hf).1 hro).mpr rfl
            have := hL.keys
            rw [if_pos hc] at this
            exact hd (by simpa using this)
    subst this
    obtain ⟨i, hi, hib⟩ := List.mem_iff_getElem.mp hb
    refine X.suspended hA hrn hs hf hL (p := pin v i) (v := v) (blob := blob) ?_ hbne hv hfix
    unfold Args.blobs
    rw [List.mem_flatMap]
    refine ⟨(v, blobs), hmem, List.mem_map.mpr ⟨(blob, i), ?_, rfl⟩⟩
    rw [List.mem_zipIdx_iff_getElem?]
    simp [hib ▸ (List.getElem?_eq_getElem hi)]

/-! ### Examples -/

namespace Demo

/-- A path of three nodes in a ring of six, the chain of `1` held at `14` and at one of `12`, `13`. Pins are
numbers from 100. -/
def hang : Args Nat :=
  { srcE := [(1, 2), (2, 3)]
    srcN := some [1, 2, 3]
    tgtE := [(10, 11), (11, 12), (12, 13), (13, 14), (14, 15), (15, 10)]
    tgtN := none
    fixed := []
    initial := []
    restr := []
    suspend := [(1, [[14], [12, 13], []])] }

def pins (v i : Nat) : Nat := 100 + 10 * v + i

theorem hang_ok : hang.OK := by constructor <;> decide

/-- What the call returns. -/
def hung : Result Nat := { dict := [(1, [14, 13]), (2, [15]), (3, [10])], flag := none }

theorem hang_run : call pins sortBySize cfg params false hang tape0 = .ok hung := by
  have : (call pins sortBySize cfg params false hang tape0).toOption.map (fun r => (r.dict, r.flag)) = some (hung.dict, hung.flag) := by
    decide +kernel
  cases h : call pins sortBySize cfg params false hang tape0 with
  | error e => rw [h] at this; cases this
  | ok r =>
    rw [h] at this
    cases r
    simp only [Except.toOption, Option.map_some, Option.some.injEq, Prod.mk.injEq] at this
    rw [this.1, this.2]

example : MinorUpTo hang.Fix hang.src hang.tgt hung.chain :=
  C01_dict_is_minor_embedding sortOK hang hang_ok rfl _ _ _ _ _ hang_run (.inr ⟨rfl, by decide⟩)

example : isValid id id hung.chain hang.src hang.tgt = true :=
  C01_dict_passes_is_valid_embedding sortOK hang hang_ok rfl rfl _ _ _ _ _ hang_run (.inr ⟨rfl, by decide⟩) id id
    (fun _ => .refl _) (fun _ => .refl _)

example : ∃ c, hung.chain 1 = some c ∧ ∃ q ∈ c, q ∈ [12, 13] :=
  (C25_suspended_chains sortOK hang hang_ok rfl _ _ _ _ _ hang_run (.inr ⟨rfl, by decide⟩)).1 1 _ (.head _) (by decide)
    (by rintro ⟨e, he, _⟩; cases he) _ (.tail _ (.head _)) (by decide)

example : (call pins sortBySize cfg params true hang tape0).toOption.map (fun r => (r.dict, r.flag)) = some (hung.dict, some true) := by
  decide +kernel

end Demo

/-- **C11 fails for an empty source graph**: the documentation promises a pair if `return_overlap` is set, but only a
dict comes back. -/
theorem C11_no_flag_for_empty_source (a : Args α) (h1 : a.srcE = []) (h2 : a.srcN = none ∨ a.srcN = some [])
    (C : Cfg) (A : Params) (t : Tape) : call pin sort C A true a t = .ok { dict := [], flag := none } := by
  unfold call Args.parse
  have : (LGraph.read a.srcE a.srcN).L.label = [] := by
    rw [h1]
    rcases h2 with h2 | h2 <;> rw [h2] <;> rfl
  dsimp only
  rw [if_pos this]

end MM
