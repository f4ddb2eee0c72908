import Verif.Py.ParseInv
import Verif.Props.Embedding
import Mathlib.Data.List.Dedup

/-! From chains of numbers back to chains of labels. -/

namespace MM

/-! ### Specification -/

namespace Spec
namespace Py

open MM.Py Relation

variable {α : Type} [DecidableEq α]

/-- The graph a caller means by a list of edges and perhaps a list of nodes. -/
def inputGraph (edges : List (α × α)) (nodes : Option (List α)) : Graph α :=
  { nodes := ((edges.flatMap fun e => [e.1, e.2]) ++ nodes.elim [] id).reverse.dedup.reverse
    edges := edges }

/-- As `MinorEmbedding`, leaving open whether the chains of the nodes in `fx` are connected and whether edges
between two such nodes are realised. -/
structure MinorUpTo (fx : α → Prop) (src tgt : Graph α) (emb : α → Option (List α)) : Prop where
  chain : ∀ x ∈ src.nodes, ∃ c, emb x = some c ∧ c ≠ []
  nodes : ∀ x ∈ src.nodes, ∀ c, emb x = some c → ∀ q ∈ c, q ∈ tgt.nodes
  linked : ∀ x ∈ src.nodes, ¬ fx x → ∀ c, emb x = some c → Linked tgt c
  disjoint : ∀ x ∈ src.nodes, ∀ y ∈ src.nodes, x ≠ y → ∀ c d, emb x = some c → emb y = some d → ∀ q ∈ c, q ∉ d
  edges : ∀ x y, src.Adj x y → x ≠ y → ¬ (fx x ∧ fx y) → ∀ c d, emb x = some c → emb y = some d → Joined tgt c d

end Py
end Spec

namespace Py

open Relation
open Scratch (Cfg)
open Spec.Py (inputGraph MinorUpTo)

variable {α : Type} [DecidableEq α]

theorem mem_inputGraph {edges : List (α × α)} {nodes : Option (List α)} {x : α} :
    x ∈ (inputGraph edges nodes).nodes ↔ x ∈ (edges.flatMap fun e => [e.1, e.2]) ++ nodes.elim [] id := by
  unfold inputGraph
  rw [List.mem_reverse, List.mem_dedup, List.mem_reverse]

theorem inputGraph_wf (edges : List (α × α)) (nodes : Option (List α)) : (inputGraph edges nodes).WF where
  nodup := List.nodup_reverse.mpr (List.nodup_dedup _)
  ends := by
    intro e he
    have : e ∈ edges := he
    rw [mem_inputGraph, mem_inputGraph]
    constructor <;> (rw [List.mem_append, List.mem_flatMap]; exact .inl ⟨e, this, by simp⟩)

/-- What a caller must see to (a Python dict has distinct keys anyway). -/
structure Args.OK (a : Args α) : Prop where
  fkeys : (a.fixed.map Prod.fst).Nodup
  ikeys : (a.initial.map Prod.fst).Nodup
  rkeys : (a.restr.map Prod.fst).Nodup
  /-- fixed chains do not meet -/
  fdisj : ∀ e ∈ a.fixed, ∀ e' ∈ a.fixed, e.1 ≠ e'.1 → ∀ q ∈ e.2, q ∉ e'.2
  /-- initial chains are for nodes that are not fixed -/
  ifree : ∀ e ∈ a.initial, ∀ e' ∈ a.fixed, e.2 ≠ [] → e'.2 ≠ [] → e.1 ≠ e'.1
  /-- and avoid the fixed chains -/
  iavoid : ∀ e ∈ a.initial, ∀ e' ∈ a.fixed, ∀ q ∈ e.2, q ∉ e'.2

/-- The nodes with a fixed chain. -/
def Args.Fix (a : Args α) (x : α) : Prop := ∃ e ∈ a.fixed, e.1 = x ∧ e.2 ≠ []

/-- The two graphs. -/
def Args.src (a : Args α) : Graph α := inputGraph a.srcE a.srcN
def Args.tgt (a : Args α) : Graph α := inputGraph a.tgtE a.tgtN

theorem LGraph.Rep.forall_idx {es : List (α × α)} {X : LGraph α} (h : X.Rep es) {u v : Nat} (he : (u, v) ∈ X.g.edges) :
    ∃ e ∈ es, X.L.idx e.1 = some u ∧ X.L.idx e.2 = some v := by
  have := h.edges
  clear h
  generalize X.g.edges = ds at *
  induction this with
  | nil => cases he
  | cons h1 _ ih =>
    rcases List.mem_cons.mp he with rfl | he
    · exact ⟨_, by simp, h1⟩
    · obtain ⟨e, h2, h3⟩ := ih he
      exact ⟨e, by simp [h2], h3⟩

theorem LGraph.Rep.edge_back {es : List (α × α)} {X : LGraph α} (h : X.Rep es) {x y : α} {u v : Nat}
    (hx : X.L.idx x = some u) (hy : X.L.idx y = some v) (he : X.g.Edge u v) : (x, y) ∈ es ∨ (y, x) ∈ es := by
  rcases he with he | he
  · obtain ⟨e, h1, h2, h3⟩ := h.forall_idx he
    have a := h.wf.inj h2 hx
    have b := h.wf.inj h3 hy
    subst a b
    exact .inl h1
  · obtain ⟨e, h1, h2, h3⟩ := h.forall_idx he
    have a := h.wf.inj h2 hy
    have b := h.wf.inj h3 hx
    subst a b
    exact .inr h1

theorem LGraph.Rep.edge_fwd {es : List (α × α)} {X : LGraph α} (h : X.Rep es) {e : α × α} (he : e ∈ es) :
    ∃ u v, X.L.idx e.1 = some u ∧ X.L.idx e.2 = some v ∧ (u, v) ∈ X.g.edges := by
  have := h.edges
  clear h
  generalize X.g.edges = ds at *
  induction this with
  | nil => cases he
  | cons h1 _ ih =>
    rcases List.mem_cons.mp he with rfl | he
    · exact ⟨_, _, h1.1, h1.2, by simp⟩
    · obtain ⟨u, v, h2, h3, h4⟩ := ih he
      exact ⟨u, v, h2, h3, by simp [h4]⟩

theorem LGraph.Rep.edge_of {es : List (α × α)} {X : LGraph α} (h : X.Rep es) {x y : α} {u v : Nat}
    (hx : X.L.idx x = some u) (hy : X.L.idx y = some v) (he : (x, y) ∈ es ∨ (y, x) ∈ es) : X.g.Edge u v := by
  rcases he with he | he
  · obtain ⟨i, j, h1, h2, h3⟩ := h.edge_fwd he
    dsimp only at h1 h2
    rw [hx] at h1
    rw [hy] at h2
    cases h1
    cases h2
    exact .inl h3
  · obtain ⟨i, j, h1, h2, h3⟩ := h.edge_fwd he
    dsimp only at h1 h2
    rw [hy] at h1
    rw [hx] at h2
    cases h1
    cases h2
    exact .inr h3

theorem LGraph.Rep.idx_of_mem {es : List (α × α)} {X : LGraph α} (h : X.Rep es) {x : α} (hx : x ∈ X.L.label) :
    ∃ u, X.L.idx x = some u ∧ u < X.L.label.length := by
  obtain ⟨i, hi⟩ := Option.isSome_iff_exists.mp ((h.wf.has_iff x).mpr hx)
  exact ⟨i, hi, h.wf.lt hi⟩

theorem LGraph.Rep.gwf {es : List (α × α)} {X : LGraph α} (h : X.Rep es) : X.g.WF := by
  intro d hd
  obtain ⟨e, _, h1, h2⟩ := h.forall_idx hd
  rw [h.n]
  exact ⟨h.wf.lt h1, h.wf.lt h2⟩

/-- The parts of `ParsedAs` used below, with the witnesses named. -/
structure Ctx (pin : α → Nat → α) (a : Args α) (P : Parsed α) (S0 T0 : LGraph α) (isoS isoT : List α) (fx : ChainMap) : Prop where
  rS : ReadAs a.srcE a.srcN isoS S0
  rT : ReadAs a.tgtE a.tgtN isoT T0
  neS : S0.L.label ≠ []
  neT : T0.L.label ≠ []
  fix : chainmap S0.L T0.L a.fixed [] = .ok fx
  ini : chainmap S0.L T0.L a.initial [] = .ok P.initC
  res : chainmap S0.L T0.L a.restr [] = .ok P.restrC
  inv : PInv S0 T0 (a.srcE ++ isoS.map fun a => (a, a)) (a.tgtE ++ isoT.map fun a => (a, a)) fx (a.blobs pin)
      { S := P.S, T := P.T, fixedC := P.fixedC, pins := P.pins }

namespace Ctx

variable {pin : α → Nat → α} {a : Args α} {P : Parsed α} {S0 T0 : LGraph α} {isoS isoT : List α} {fx : ChainMap}

theorem memS (X : Ctx pin a P S0 T0 isoS isoT fx) (x : α) : x ∈ S0.L.label ↔ x ∈ a.src.nodes := by
  unfold Args.src; rw [mem_inputGraph]; exact X.rS.first.mem x

theorem memT (X : Ctx pin a P S0 T0 isoS isoT fx) (x : α) : x ∈ T0.L.label ↔ x ∈ a.tgt.nodes := by
  unfold Args.tgt; rw [mem_inputGraph]; exact X.rT.first.mem x

theorem idxS (X : Ctx pin a P S0 T0 isoS isoT fx) {x : α} {u : Nat} : S0.L.idx x = some u ↔ P.S.L.idx x = some u ∧ u < S0.L.label.length := by
  constructor
  · intro h
    exact ⟨X.inv.leS.1 _ _ h, X.rS.rep.wf.lt h⟩
  · rintro ⟨h, hlt⟩
    rw [X.inv.S.wf.idx] at h
    dsimp only at h
    have hl := X.inv.labS
    dsimp only at hl
    rw [hl, List.getElem?_append_left hlt] at h
    exact (X.rS.rep.wf.idx _ _).mpr h

theorem idxT (X : Ctx pin a P S0 T0 isoS isoT fx) {x : α} {u : Nat} : T0.L.idx x = some u ↔ P.T.L.idx x = some u ∧ u < T0.L.label.length := by
  constructor
  · intro h
    exact ⟨X.inv.leT.1 _ _ h, X.rT.rep.wf.lt h⟩
  · rintro ⟨h, hlt⟩
    rw [X.inv.T.wf.idx] at h
    dsimp only at h
    have hl := X.inv.labT
    dsimp only at hl
    rw [hl, List.getElem?_append_left hlt] at h
    exact (X.rT.rep.wf.idx _ _).mpr h

/-- Pins come after the nodes given. -/
theorem pinS (X : Ctx pin a P S0 T0 isoS isoT fx) {b : α × α × List α} (hb : b ∈ realBlobs (a.blobs pin)) {i : Nat}
    (hi : P.S.L.idx b.1 = some i) : S0.L.label.length ≤ i ∧ b.1 ∉ S0.L.label := by
  have hn := X.inv.S.wf.nodup
  have hl := X.inv.labS
  dsimp only at hn hl
  rw [hl, List.nodup_append] at hn
  have hx : b.1 ∉ S0.L.label := fun hc => hn.2.2 _ hc _ (List.mem_map_of_mem hb) rfl
  refine ⟨?_, hx⟩
  by_contra hc
  have := (X.idxS).mpr ⟨hi, by omega⟩
  exact hx ((X.rS.rep.wf.has_iff _).mp (by unfold LabelDict.has; simp [this]))

theorem pinT (X : Ctx pin a P S0 T0 isoS isoT fx) {b : α × α × List α} (hb : b ∈ realBlobs (a.blobs pin)) {i : Nat}
    (hi : P.T.L.idx b.1 = some i) : T0.L.label.length ≤ i ∧ b.1 ∉ T0.L.label := by
  have hn := X.inv.T.wf.nodup
  have hl := X.inv.labT
  dsimp only at hn hl
  rw [hl, List.nodup_append] at hn
  have hx : b.1 ∉ T0.L.label := fun hc => hn.2.2 _ hc _ (List.mem_map_of_mem hb) rfl
  refine ⟨?_, hx⟩
  by_contra hc
  have := (X.idxT).mpr ⟨hi, by omega⟩
  exact hx ((X.rT.rep.wf.has_iff _).mp (by unfold LabelDict.has; simp [this]))

theorem pins_len (X : Ctx pin a P S0 T0 isoS isoT fx) : P.S.L.label.length = S0.L.label.length + P.pins := by
  have hl := X.inv.labS
  have hp := X.inv.pins
  dsimp only at hl hp
  rw [hl, hp]
  simp

/-- Members of the entry of a dict item. -/
theorem entry_mem {SL TL : LabelDict α} {e : α × List α} {kv : Int × List Int} (h : EntryOf SL TL e kv) :
    (∀ z ∈ kv.2, ∃ x ∈ e.2, ∃ i : Nat, TL.idx x = some i ∧ z = i) ∧ (∀ x ∈ e.2, ∃ i : Nat, TL.idx x = some i ∧ (i : Int) ∈ kv.2) ∧ kv.2 ≠ [] := by
  obtain ⟨h1, _, h3⟩ := h
  refine ⟨?_, ?_, ?_⟩
  · intro z hz
    have := List.forall₂_iff_get.mp h3
    obtain ⟨n, hn, rfl⟩ := List.mem_iff_getElem.mp hz
    have hn' : n < e.2.length := by rw [this.1]; exact hn
    obtain ⟨i, hi, he⟩ := this.2 n hn' hn
    exact ⟨_, List.getElem_mem hn', i, hi, he⟩
  · intro x hx
    have := List.forall₂_iff_get.mp h3
    obtain ⟨n, hn, rfl⟩ := List.mem_iff_getElem.mp hx
    have hn' : n < kv.2.length := by rw [← this.1]; exact hn
    obtain ⟨i, hi, he⟩ := this.2 n hn hn'
    refine ⟨i, hi, ?_⟩
    rw [← he]
    exact List.getElem_mem hn'
  · intro hc
    rw [hc] at h3
    have := h3.length_eq
    simp at this
    exact h1 this

theorem fixed_iff (X : Ctx pin a P S0 T0 isoS isoT fx) (hk : (a.fixed.map Prod.fst).Nodup) (kv : Int × List Int) :
    kv ∈ P.fixedC ↔ (∃ e ∈ a.fixed, EntryOf S0.L T0.L e kv) ∨ ∃ b ∈ realBlobs (a.blobs pin), ∃ i j : Nat,
      P.S.L.idx b.1 = some i ∧ P.T.L.idx b.1 = some j ∧ kv = ((i : Int), [(j : Int)]) := by
  rw [← (chainmap_nil X.rS.rep.wf X.fix hk).2.1 kv]
  exact X.inv.fixed kv

theorem ok (X : Ctx pin a P S0 T0 isoS isoT fx) (hA : a.OK) : P.input.OK := by
  have hF := X.fixed_iff hA.fkeys
  have hI := chainmap_nil X.rS.rep.wf X.ini hA.ikeys
  have hR := chainmap_nil X.rS.rep.wf X.res hA.rkeys
  have hS := X.inv.S
  have hT := X.inv.T
  dsimp only at hS hT
  have lS : S0.L.label.length ≤ P.S.L.label.length := by rw [X.pins_len]; omega
  have lT : T0.L.label.length ≤ P.T.L.label.length := by
    have hl := X.inv.labT
    dsimp only at hl
    rw [hl]; simp
  refine ⟨hS.gwf, hT.gwf, ?_, ?_, ?_, X.inv.keys, hI.1, hR.1, ?_, ?_, ?_, ?_, ?_, ?_⟩
  · show 0 < P.S.g.n
    rw [hS.n]
    have := List.length_pos_iff.mpr X.neS
    omega
  · show 0 < P.T.g.n
    rw [hT.n]
    have := List.length_pos_iff.mpr X.neT
    omega
  · intro x hx
    have hx : x < P.T.g.n := hx
    rw [hT.n] at hx
    have hmem : P.T.L.label[x] ∈ P.T.L.label := List.getElem_mem hx
    have hix : P.T.L.idx P.T.L.label[x] = some x := (hT.wf.idx _ _).mpr (by simp [hx])
    obtain ⟨e, he, h⟩ := (hT.mem _).mp hmem
    obtain ⟨u, v, h1, h2, h3⟩ := hT.edge_fwd he
    rcases h with h | h
    · rw [← h, hix] at h1
      cases h1
      exact ⟨v, .inl h3⟩
    · rw [← h, hix] at h2
      cases h2
      exact ⟨u, .inr h3⟩
  · intro kv hkv
    show (0 ≤ kv.1 ∧ kv.1 < (P.S.g.n : Int)) ∧ ∀ q ∈ kv.2, 0 ≤ q ∧ q < (P.T.g.n : Int)
    rw [hS.n, hT.n]
    rcases (hF kv).mp hkv with ⟨e, he, h⟩ | ⟨b, hb, i, j, hi, hj, h⟩
    · obtain ⟨i, hi, hk⟩ := h.2.1
      have := X.rS.rep.wf.lt hi
      refine ⟨by omega, ?_⟩
      intro q hq
      obtain ⟨x, hx, j, hj, hqj⟩ := (entry_mem h).1 q hq
      have := X.rT.rep.wf.lt hj
      omega
    · have h1 := hS.wf.lt hi
      have h2 := hT.wf.lt hj
      subst h
      refine ⟨by dsimp only; omega, ?_⟩
      intro q hq
      dsimp only at hq
      rw [List.mem_singleton] at hq
      omega
  · intro kv hkv
    rcases (hF kv).mp hkv with ⟨e, he, h⟩ | ⟨b, hb, i, j, hi, hj, h⟩
    · exact (entry_mem h).2.2
    · subst h; simp
  · intro kv hkv kv' hkv' hne q hq hq'
    rcases (hF kv).mp hkv with ⟨e, he, h⟩ | ⟨b, hb, i, j, hi, hj, h⟩ <;>
    rcases (hF kv').mp hkv' with ⟨e', he', h'⟩ | ⟨b', hb', i', j', hi', hj', h'⟩
    · obtain ⟨x, hx, i, hi, rfl⟩ := (entry_mem h).1 q hq
      obtain ⟨x', hx', i', hi', he2⟩ := (entry_mem h').1 _ hq'
      have : i = i' := by exact_mod_cast he2
      subst this
      have := X.rT.rep.wf.inj hi hi'
      subst this
      refine hA.fdisj e he e' he' ?_ x hx hx'
      intro hee
      obtain ⟨k, hk, hk1⟩ := h.2.1
      obtain ⟨k', hk', hk1'⟩ := h'.2.1
      rw [hee, hk'] at hk
      cases hk
      exact hne (by rw [hk1, hk1'])
    · obtain ⟨x, hx, i, hi, rfl⟩ := (entry_mem h).1 q hq
      have l1 := X.rT.rep.wf.lt hi
      have l2 := (X.pinT hb' hj').1
      subst h'
      dsimp only at hq'
      rw [List.mem_singleton] at hq'
      omega
    · obtain ⟨x, hx, k, hk, rfl⟩ := (entry_mem h').1 q hq'
      have l1 := X.rT.rep.wf.lt hk
      have l2 := (X.pinT hb hj).1
      subst h
      dsimp only at hq
      rw [List.mem_singleton] at hq
      omega
    · subst h h'
      dsimp only at hq hq' hne
      rw [List.mem_singleton] at hq hq'
      have : j = j' := by omega
      subst this
      have := hT.wf.inj hj hj'
      rw [this, hi'] at hi
      cases hi
      exact hne rfl
  · intro kv hkv
    obtain ⟨e, he, h⟩ := (hI.2.1 kv).mp hkv
    exact (entry_mem h).2.2
  · intro kv hkv kv' hkv' hk
    obtain ⟨e, he, h⟩ := (hI.2.1 kv).mp hkv
    obtain ⟨i, hi, hki⟩ := h.2.1
    rcases (hF kv').mp hkv' with ⟨e', he', h'⟩ | ⟨b', hb', i', j', hi', hj', h'⟩
    · obtain ⟨i', hi', hki'⟩ := h'.2.1
      have : i = i' := by omega
      subst this
      exact hA.ifree e he e' he' h.1 h'.1 (X.rS.rep.wf.inj hi hi')
    · have l1 := X.rS.rep.wf.lt hi
      have l2 := (X.pinS hb' hi').1
      subst h'
      dsimp only at hk
      omega
  · intro kv hkv kv' hkv' q hq hq'
    obtain ⟨e, he, h⟩ := (hI.2.1 kv).mp hkv
    obtain ⟨x, hx, i, hi, rfl⟩ := (entry_mem h).1 q hq
    rcases (hF kv').mp hkv' with ⟨e', he', h'⟩ | ⟨b', hb', i', j', hi', hj', h'⟩
    · obtain ⟨x', hx', i', hi', he2⟩ := (entry_mem h').1 _ hq'
      have : i = i' := by omega
      subst this
      have := X.rT.rep.wf.inj hi hi'
      subst this
      exact hA.iavoid e he e' he' x hx hx'
    · have l1 := X.rT.rep.wf.lt hi
      have l2 := (X.pinT hb' hj').1
      subst h'
      dsimp only at hq'
      rw [List.mem_singleton] at hq'
      omega

/-- Fixed variables are the nodes with a fixed chain and the pins. -/
theorem fixV_iff (X : Ctx pin a P S0 T0 isoS isoT fx) (hA : a.OK) {x : α} {u : Nat} (hx : S0.L.idx x = some u) :
    P.input.FixV u ↔ a.Fix x := by
  have hF := X.fixed_iff hA.fkeys
  have hlt := X.rS.rep.wf.lt hx
  constructor
  · rintro ⟨kv, hkv, hu⟩
    rcases (hF kv).mp hkv with ⟨e, he, h⟩ | ⟨b, hb, i, j, hi, hj, h⟩
    · obtain ⟨i, hi, hk⟩ := h.2.1
      have : i = u := by omega
      subst this
      exact ⟨e, he, X.rS.rep.wf.inj hi hx, h.1⟩
    · have := (X.pinS hb hi).1
      subst h
      dsimp only at hu
      omega
  · rintro ⟨e, he, rfl, hne⟩
    obtain ⟨kv, hkv, h⟩ := (chainmap_nil X.rS.rep.wf X.fix hA.fkeys).2.2 e he hne
    obtain ⟨i, hi, hk⟩ := h.2.1
    rw [hx] at hi
    cases hi
    exact ⟨kv, (hF kv).mpr (.inl ⟨e, he, h⟩), hk⟩

end Ctx

/-! ### Translating the result -/

theorem labelsOf_spec {TL : LabelDict α} : ∀ {c : List Nat} {ls : List α}, labelsOf TL c = .ok ls →
    List.Forall₂ (fun z x => TL.label[z]? = some x) c ls := by
  intro c
  induction c with
  | nil => intro ls h; cases h; exact .nil
  | cons z c ih =>
    intro ls h
    unfold labelsOf at h
    cases hz : TL.label[z]? with
    | none => rw [hz] at h; cases h
    | some x =>
      rw [hz] at h
      dsimp only at h
      cases hl : labelsOf TL c with
      | error e => rw [hl] at h; cases h
      | ok d =>
        rw [hl] at h
        cases h
        exact .cons hz (ih hl)

theorem rchain_spec {SL TL : LabelDict α} : ∀ {cs : List (List Nat)} {v : Nat} {d : List (α × List α)}, rchain SL TL v cs = .ok d →
    d.map Prod.fst = (SL.label.drop v).take cs.length ∧ d.length = cs.length ∧
    ∀ (i : Nat) (c : List Nat), cs[i]? = some c → ∃ x ls, d[i]? = some (x, ls) ∧ SL.label[v + i]? = some x ∧
      List.Forall₂ (fun z x => TL.label[z]? = some x) c ls := by
  intro cs
  induction cs with
  | nil => intro v d h; cases h; simp
  | cons c cs ih =>
    intro v d h
    unfold rchain at h
    cases hx : SL.label[v]? with
    | none => rw [hx] at h; cases h
    | some x =>
      cases hl : labelsOf TL c with
      | error e => rw [hx, hl] at h; cases h
      | ok ls =>
        rw [hx, hl] at h
        dsimp only at h
        cases hr : rchain SL TL (v + 1) cs with
        | error e => rw [hr] at h; cases h
        | ok r =>
          rw [hr] at h
          cases h
          obtain ⟨h1, h2, h3⟩ := ih hr
          refine ⟨?_, by simp [h2], ?_⟩
          · rw [List.map_cons, h1, List.length_cons]
            obtain ⟨hv, hxe⟩ := List.getElem?_eq_some_iff.mp hx
            rw [List.drop_eq_getElem_cons hv, List.take_succ_cons, hxe]
          · intro i c' hc'
            cases i with
            | zero =>
              simp only [List.getElem?_cons_zero, Option.some.injEq] at hc'
              subst hc'
              exact ⟨x, ls, by simp, by simpa using hx, labelsOf_spec hl⟩
            | succ i =>
              simp only [List.getElem?_cons_succ] at hc'
              obtain ⟨y, ms, a1, a2, a3⟩ := h3 i c' hc'
              refine ⟨y, ms, by simpa using a1, ?_, a3⟩
              rw [← a2]; congr 1; omega

theorem labelsOf_ok {TL : LabelDict α} {c : List Nat} (h : ∀ z ∈ c, z < TL.label.length) : ∃ ls, labelsOf TL c = .ok ls := by
  induction c with
  | nil => exact ⟨[], rfl⟩
  | cons z c ih =>
    obtain ⟨ls, hl⟩ := ih (fun y hy => h y (by simp [hy]))
    have hz := h z (by simp)
    refine ⟨TL.label[z] :: ls, ?_⟩
    unfold labelsOf
    rw [List.getElem?_eq_getElem hz, hl]

theorem rchain_ok {SL TL : LabelDict α} {cs : List (List Nat)} : ∀ {v : Nat}, v + cs.length ≤ SL.label.length →
    (∀ c ∈ cs, ∀ z ∈ c, z < TL.label.length) → ∃ d, rchain SL TL v cs = .ok d := by
  induction cs with
  | nil => intro v _ _; exact ⟨[], rfl⟩
  | cons c cs ih =>
    intro v hv h
    obtain ⟨ls, hl⟩ := labelsOf_ok (h c (by simp))
    rw [List.length_cons] at hv
    obtain ⟨d, hd⟩ := ih (v := v + 1) (by omega) (fun c' hc' => h c' (by simp [hc']))
    refine ⟨(SL.label[v]'(by omega), ls) :: d, ?_⟩
    unfold rchain
    rw [List.getElem?_eq_getElem (by omega), hl, hd]

/-- How the dict returned belongs to the chains found. -/
structure Lifted (P : Parsed α) (S0 T0 : LGraph α) (cs : List (List Nat)) (r : Result α) : Prop where
  keys : r.dict.map Prod.fst = if cs = [] then [] else S0.L.label
  chain : cs ≠ [] → ∀ x u, S0.L.idx x = some u → ∃ c ls, cs[u]? = some c ∧ r.chain x = some ls ∧
    List.Forall₂ (fun z x => P.T.L.label[z]? = some x) c ls

theorem mem_of_forall {TL : LabelDict α} (hT : TL.WF) {c : List Nat} {ls : List α} (h : List.Forall₂ (fun z x => TL.label[z]? = some x) c ls) (x : α) :
    x ∈ ls ↔ ∃ z ∈ c, TL.idx x = some z := by
  have := List.forall₂_iff_get.mp h
  constructor
  · intro hx
    obtain ⟨n, hn, rfl⟩ := List.mem_iff_getElem.mp hx
    have hn' : n < c.length := by rw [this.1]; exact hn
    exact ⟨_, List.getElem_mem hn', (hT.idx _ _).mpr (this.2 n hn' hn)⟩
  · rintro ⟨z, hz, hi⟩
    obtain ⟨n, hn, rfl⟩ := List.mem_iff_getElem.mp hz
    have hn' : n < ls.length := by rw [← this.1]; exact hn
    have h1 := this.2 n hn hn'
    have h2 := (hT.idx _ _).mp hi
    simp only [List.get_eq_getElem] at h1
    rw [h1] at h2
    cases h2
    exact List.getElem_mem hn'

theorem call_spec {pin : α → Nat → α} {sort : List (List Nat) → List (List Nat)} (hs : SortOK sort) {C : Cfg} {A : Params}
    {ro : Bool} {a : Args α} (hA : a.OK) (hr : a.restr = []) {t : Tape} {r : Result α} (h : call pin sort C A ro a t = .ok r)
    (hne : a.src.nodes ≠ []) :
    ∃ P S0 T0 isoS isoT fx ok cs, Ctx pin a P S0 T0 isoS isoT fx ∧ P.input.OK ∧ P.input.restrC = [] ∧
      findEmbedding sort C A ro P.input t = .ok (ok, cs) ∧ r.flag = (if ro then some ok else none) ∧ Lifted P S0 T0 cs r ∧
      P.S.L.label.length = P.input.src.n ∧ P.T.L.label.length = P.input.tgt.n := by
  unfold call at h
  cases hp : a.parse pin with
  | error e =>
    rw [hp] at h
    cases e with
    | emptySource =>
      exfalso
      obtain ⟨isoS, hS, hSi, hSf⟩ := LGraph.read_spec a.srcE a.srcN
      have : (LGraph.read a.srcE a.srcN).L.label = [] := by
        unfold Args.parse at hp
        dsimp only at hp
        split at hp
        · assumption
        · exfalso
          split at hp
          · cases hp
          · have hcm : ∀ (SL TL : LabelDict α) (D : List (α × List α)) (m : ChainMap), chainmap SL TL D m ≠ .error .emptySource := by
              intro SL TL D
              induction D with
              | nil => intro m hc; cases hc
              | cons kv D ih =>
                intro m hc
                unfold chainmap at hc
                have hcn : ∀ l, chainNums TL l ≠ .error .emptySource := by
                  intro l
                  induction l with
                  | nil => intro hc; cases hc
                  | cons x l ih2 =>
                    intro hc
                    unfold chainNums at hc
                    cases hx : TL.idx x with
                    | none => rw [hx] at hc; cases hc
                    | some i =>
                      rw [hx] at hc
                      dsimp only at hc
                      cases hl : chainNums TL l with
                      | error e => rw [hl] at hc; cases hc; exact ih2 hl
                      | ok d => rw [hl] at hc; cases hc
                split at hc
                · exact ih m hc
                · cases hl : chainNums TL kv.2 with
                  | error e => rw [hl] at hc; cases hc; exact hcn _ hl
                  | ok d =>
                    rw [hl] at hc
                    dsimp only at hc
                    cases hx : SL.idx kv.1 with
                    | none => rw [hx] at hc; cases hc
                    | some i => rw [hx] at hc; exact ih _ hc
            have hpe : ∀ (p : α) (l : List α) (T : LGraph α), pinEdges p l T ≠ .error .emptySource := by
              intro p l
              induction l with
              | nil => intro T hc; cases hc
              | cons q l ih =>
                intro T hc
                unfold pinEdges at hc
                split at hc
                · exact ih _ hc
                · cases hc
            have hap : ∀ (l : List (α × α × List α)) (s : PState α), addPins l s ≠ .error .emptySource := by
              intro l
              induction l with
              | nil => intro s hc; cases hc
              | cons b l ih =>
                intro s hc
                unfold addPins at hc
                cases hb : addPin b.1 b.2.1 b.2.2 s with
                | ok s' => rw [hb] at hc; exact ih _ hc
                | error e =>
                  rw [hb] at hc
                  cases hc
                  unfold addPin at hb
                  split at hb
                  · cases hb
                  · split at hb
                    · cases hb
                    · cases hq : pinEdges b.1 b.2.2 s.T with
                      | error e => rw [hq] at hb; cases hb; exact hpe _ _ _ hq
                      | ok T =>
                        rw [hq] at hb
                        dsimp only at hb
                        split at hb
                        · cases hb
                        · split at hb <;> cases hb
            cases h1 : chainmap (LGraph.read a.srcE a.srcN).L (LGraph.read a.tgtE a.tgtN).L a.fixed [] with
            | error e => rw [h1] at hp; cases hp; exact hcm _ _ _ _ h1
            | ok m1 =>
              rw [h1] at hp
              dsimp only at hp
              cases h2 : chainmap (LGraph.read a.srcE a.srcN).L (LGraph.read a.tgtE a.tgtN).L a.initial [] with
              | error e => rw [h2] at hp; cases hp; exact hcm _ _ _ _ h2
              | ok m2 =>
                rw [h2] at hp
                dsimp only at hp
                cases h3 : chainmap (LGraph.read a.srcE a.srcN).L (LGraph.read a.tgtE a.tgtN).L a.restr [] with
                | error e => rw [h3] at hp; cases hp; exact hcm _ _ _ _ h3
                | ok m3 =>
                  rw [h3] at hp
                  dsimp only at hp
                  cases h4 : addPins (a.blobs pin) { S := LGraph.read a.srcE a.srcN, T := LGraph.read a.tgtE a.tgtN, fixedC := m1, pins := 0 } with
                  | error e => rw [h4] at hp; cases hp; exact hap _ _ h4
                  | ok s => rw [h4] at hp; cases hp
      obtain ⟨x, hx⟩ := List.exists_mem_of_ne_nil _ hne
      unfold Args.src at hx
      rw [mem_inputGraph, ← hSf.mem x, this] at hx
      cases hx
    | value => cases h
    | runtime => cases h
    | index => cases h
    | core f => cases h
  | ok P =>
    rw [hp] at h
    dsimp only at h
    cases hf : findEmbedding sort C A ro P.input t with
    | error f => rw [hf] at h; cases h
    | ok r0 =>
      obtain ⟨ok, cs⟩ := r0
      rw [hf] at h
      dsimp only at h
      cases hc : rchain P.S.L P.T.L 0 (cs.take (cs.length - P.pins)) with
      | error e => rw [hc] at h; cases h
      | ok d =>
        rw [hc] at h
        cases h
        obtain ⟨S0, T0, isoS, isoT, fx, h1, h2, h3, h4, h5, h6, h7, h8⟩ := (parse_spec hp hA.fkeys).ex
        have X : Ctx pin a P S0 T0 isoS isoT fx := ⟨h1, h2, h3, h4, h5, h6, h7, h8⟩
        have hI := X.ok hA
        have hrn : P.input.restrC = [] := by
          have := X.res
          rw [hr] at this
          unfold chainmap at this
          injection this with this
          exact this.symm
        have hn : P.input.src.n = P.S.L.label.length := X.inv.S.n
        have hnT : P.input.tgt.n = P.T.L.label.length := X.inv.T.n
        refine ⟨P, S0, T0, isoS, isoT, fx, ok, cs, X, hI, hrn, hf, rfl, ?_, hn.symm, hnT.symm⟩
        have h11 := C11_result_contract hs hI (Input.compatible_of_nil hrn) C A ro ok t cs hf
        obtain ⟨k1, k2, k3⟩ := rchain_spec hc
        have hlab := X.inv.labS
        dsimp only at hlab
        by_cases hcs : cs = []
        · subst hcs
          simp only [List.take_nil, List.length_nil, List.take_zero] at k1
          exact ⟨by simpa using k1, fun hc => absurd rfl hc⟩
        · have hlen : cs.length = P.S.L.label.length := by
            rw [← hn]
            apply h11.2.1
            cases ro with
            | true => exact .inr rfl
            | false =>
              left
              cases ok with
              | true => rfl
              | false => exact absurd ((h11.1 rfl).mpr rfl) hcs
          have hl0 : cs.length - P.pins = S0.L.label.length := by rw [hlen, X.pins_len]; omega
          have hle : S0.L.label.length ≤ cs.length := by omega
          have hkeys : d.map Prod.fst = S0.L.label := by
            rw [k1, hl0, List.drop_zero, List.length_take, Nat.min_eq_left hle, hlab, List.take_left']
            rfl
          refine ⟨by rw [if_neg hcs]; exact hkeys, fun _ x u hx => ?_⟩
          have hu := X.rS.rep.wf.lt hx
          have hcu : cs[u]? = some (cs[u]'(by omega)) := List.getElem?_eq_getElem _
          obtain ⟨y, ls, a1, a2, a3⟩ := k3 u (cs[u]'(by omega)) (by
            rw [List.getElem?_take_of_lt (by omega)]; exact hcu)
          rw [Nat.zero_add] at a2
          have hxy := (X.inv.S.wf.idx x u).mp (X.idxS.mp hx).1
          dsimp only at hxy
          rw [a2] at hxy
          cases hxy
          refine ⟨_, ls, hcu, ?_, a3⟩
          unfold Result.chain
          rw [lookup_eq_some (by rw [hkeys]; exact X.rS.rep.wf.nodup)]
          exact List.mem_of_getElem? a1

end Py
end MM

namespace MM
namespace Py

open Relation
open Scratch (Cfg)
open Spec.Py (inputGraph MinorUpTo)

variable {α : Type} [DecidableEq α]
variable {pin : α → Nat → α} {a : Args α} {P : Parsed α} {S0 T0 : LGraph α} {isoS isoT : List α} {fx : ChainMap}

/-- A target edge between nodes the caller gave is an edge the caller gave, or a self-loop. -/
theorem Ctx.tgt_edge (X : Ctx pin a P S0 T0 isoS isoT fx) {p q : Nat} {x y : α} (he : P.T.g.Edge p q)
    (hx : P.T.L.idx x = some p) (hy : P.T.L.idx y = some q) (hx0 : x ∈ T0.L.label) (hy0 : y ∈ T0.L.label) :
    a.tgt.Adj x y ∨ x = y := by
  have key : ∀ x y, x ∈ T0.L.label → y ∈ T0.L.label →
      (x, y) ∈ (a.tgtE ++ isoT.map fun a => (a, a)) ++ ((realBlobs (a.blobs pin)).flatMap fun b => b.2.2.map fun q => (b.1, q)) →
      (x, y) ∈ a.tgtE ∨ x = y := by
    intro x y hx0 hy0 h
    rcases List.mem_append.mp h with h | h
    · rcases List.mem_append.mp h with h | h
      · exact .inl h
      · obtain ⟨z, _, hz⟩ := List.mem_map.mp h
        cases hz
        exact .inr rfl
    · obtain ⟨b, hb, hq⟩ := List.mem_flatMap.mp h
      obtain ⟨z, _, hz⟩ := List.mem_map.mp hq
      cases hz
      have hm : b.1 ∈ P.T.L.label := by
        have hl := X.inv.labT
        dsimp only at hl
        rw [hl]
        exact List.mem_append_right _ (List.mem_map_of_mem hb)
      obtain ⟨i, hi, _⟩ := X.inv.T.idx_of_mem hm
      exact absurd hx0 (X.pinT hb hi).2
  rcases X.inv.T.edge_back hx hy he with h | h
  · exact (key x y hx0 hy0 h).elim (fun h => .inl (.inl h)) .inr
  · exact (key y x hy0 hx0 h).elim (fun h => .inl (.inr h)) (fun h => .inr h.symm)

/-- The chains of the nodes given use nodes given. -/
theorem Ctx.nodes (X : Ctx pin a P S0 T0 isoS isoT fx) (hA : a.OK) (hrn : P.input.restrC = []) {sort : List (List Nat) → List (List Nat)} (hs : SortOK sort) {C : Cfg} {A : Params}
    {ro ok : Bool} {t : Tape} {cs : List (List Nat)} (hf : findEmbedding sort C A ro P.input t = .ok (ok, cs)) {x : α} {u : Nat}
    (hx : S0.L.idx x = some u) {c : List Nat} (hc : cs[u]? = some c) {z : Nat} (hz : z ∈ c) {q : α} (hq : P.T.L.idx q = some z) :
    q ∈ T0.L.label := by
  have hI := X.ok hA
  have hcomp := Input.compatible_of_nil hrn
  have hg : ok = true ∨ ro = true := by
    have h11 := C11_result_contract hs hI hcomp C A ro ok t cs hf
    cases ro with
    | true => exact .inr rfl
    | false =>
      left
      cases ok with
      | true => rfl
      | false =>
        have : cs = [] := (h11.1 rfl).mpr rfl
        rw [this] at hc
        cases hc
  rcases C04_fixed_chains_exact hs hI hcomp C A ro ok t cs hf hg with h | h
  · have := h.2 c (List.mem_of_getElem? hc)
    rw [this] at hz
    cases hz
  · have hql : q ∈ P.T.L.label := (X.inv.T.wf.has_iff q).mp (by unfold LabelDict.has; simp [hq])
    have hl := X.inv.labT
    dsimp only at hl
    rw [hl] at hql
    rcases List.mem_append.mp hql with h' | h'
    · exact h'
    · exfalso
      obtain ⟨b, hb, rfl⟩ := List.mem_map.mp h'
      by_cases hfix : P.input.FixV u
      · obtain ⟨kv, hkv, hu⟩ := hfix
        obtain ⟨c', hc', hm, _⟩ := h kv hkv
        have : kv.1.toNat = u := by omega
        rw [this, hc] at hc'
        cases hc'
        have hzk := (hm z).mp hz
        rcases (X.fixed_iff hA.fkeys kv).mp hkv with ⟨e, he, h1⟩ | ⟨b', hb', i, j, hi, hj, h1⟩
        · obtain ⟨y, hy, i, hi, hzi⟩ := (entry_mem h1).1 _ hzk
          have l1 := X.rT.rep.wf.lt hi
          have l2 := (X.pinT hb hq).1
          omega
        · have l1 := X.rS.rep.wf.lt hx
          have l2 := (X.pinS hb' hi).1
          subst h1
          dsimp only at hu
          omega
      · have hm : b.1 ∈ P.S.L.label := by
          have hl := X.inv.labS
          dsimp only at hl
          rw [hl]
          exact List.mem_append_right _ (List.mem_map_of_mem hb)
        obtain ⟨i, hi, _⟩ := X.inv.S.idx_of_mem hm
        have hkv : ((i : Int), [(z : Int)]) ∈ P.fixedC := (X.fixed_iff hA.fkeys _).mpr (.inr ⟨b, hb, i, z, hi, hq, rfl⟩)
        obtain ⟨_, _, _, h2⟩ := h _ hkv
        exact h2 u c hfix hc z hz (by simp)

theorem Ctx.minor (X : Ctx pin a P S0 T0 isoS isoT fx) (hA : a.OK) (hrn : P.input.restrC = []) {sort : List (List Nat) → List (List Nat)} (hs : SortOK sort) {C : Cfg} {A : Params}
    {ro : Bool} {t : Tape} {cs : List (List Nat)} (hf : findEmbedding sort C A ro P.input t = .ok (true, cs)) {r : Result α}
    (hL : Lifted P S0 T0 cs r) : MinorUpTo a.Fix a.src a.tgt r.chain := by
  have hI := X.ok hA
  have hE := C01_success_is_minor_embedding hs hI hrn C A ro t cs hf
  have hcs : cs ≠ [] := by
    intro hc
    have := hE.size
    rw [hc] at this
    have h0 := hI.src_pos
    simp at this
    omega
  have hTwf : P.T.L.WF := X.inv.T.wf
  -- the chain of a node
  have get : ∀ x c, x ∈ a.src.nodes → r.chain x = some c → ∃ u cu, S0.L.idx x = some u ∧ P.S.L.idx x = some u ∧ cs[u]? = some cu ∧
      ∀ q, q ∈ c ↔ ∃ z ∈ cu, P.T.L.idx q = some z := by
    intro x c hx hc
    obtain ⟨u, hu, _⟩ := X.rS.rep.idx_of_mem ((X.memS x).mpr hx)
    obtain ⟨cu, ls, h1, h2, h3⟩ := hL.chain hcs x u hu
    rw [hc] at h2
    cases h2
    exact ⟨u, cu, hu, (X.idxS.mp hu).1, h1, mem_of_forall hTwf h3⟩
  have lab : ∀ c ∈ cs, ∀ z ∈ c, ∃ q, P.T.L.idx q = some z := by
    intro c hc z hz
    have := hE.nodes c hc z hz
    have hn : P.input.tgt.n = P.T.L.label.length := X.inv.T.n
    rw [hn] at this
    exact ⟨P.T.L.label[z], (hTwf.idx _ _).mpr (by simp [this])⟩
  refine ⟨?_, ?_, ?_, ?_, ?_⟩
  · intro x hx
    obtain ⟨u, hu, _⟩ := X.rS.rep.idx_of_mem ((X.memS x).mpr hx)
    obtain ⟨cu, ls, h1, h2, h3⟩ := hL.chain hcs x u hu
    refine ⟨ls, h2, ?_⟩
    intro hl
    subst hl
    cases h3
    exact hE.nonempty [] (List.mem_of_getElem? h1) rfl
  · intro x hx c hc q hq
    obtain ⟨u, cu, h0, h1, h2, h3⟩ := get x c hx hc
    obtain ⟨z, hz, hqz⟩ := (h3 q).mp hq
    exact (X.memT q).mp (X.nodes hA hrn hs hf h0 h2 hz hqz)
  · intro x hx hfix c hc
    obtain ⟨u, cu, h0, h1, h2, h3⟩ := get x c hx hc
    have hcon := hE.connected u cu (fun h => hfix ((X.fixV_iff hA h0).mp h)) h2
    intro p hp q hq
    obtain ⟨zp, hzp, hpz⟩ := (h3 p).mp hp
    obtain ⟨zq, hzq, hqz⟩ := (h3 q).mp hq
    have hpath := hcon zp hzp zq hzq
    clear hq
    induction hpath generalizing q with
    | refl =>
      have := hTwf.inj hpz hqz
      rw [this]
    | @tail y z hst hyz ih =>
      have hy : y ∈ cu := by
        rcases ReflTransGen.cases_tail hst with h | ⟨w, _, h⟩
        · rw [h]; exact hzp
        · exact h.1
      obtain ⟨ql, hql⟩ := lab cu (List.mem_of_getElem? h2) y hy
      have hr := ih ql hy hql
      have e := X.tgt_edge hyz.2 hql hqz (X.nodes hA hrn hs hf h0 h2 hy hql) (X.nodes hA hrn hs hf h0 h2 hzq hqz)
      rcases e with e | e
      · exact hr.tail ⟨(h3 q).mpr ⟨z, hzq, hqz⟩, e⟩
      · rw [← e]; exact hr
  · intro x hx y hy hxy c d hc hd q hq hq'
    obtain ⟨u, cu, h0, h1, h2, h3⟩ := get x c hx hc
    obtain ⟨v, cv, k0, k1, k2, k3⟩ := get y d hy hd
    obtain ⟨z, hz, hqz⟩ := (h3 q).mp hq
    obtain ⟨w, hw, hqw⟩ := (k3 q).mp hq'
    rw [hqz] at hqw
    cases hqw
    refine hE.disjoint u v cu cv ?_ h2 k2 z hz hw
    rintro rfl
    exact hxy (X.rS.rep.wf.inj h0 k0)
  · intro x y hxy hne hfix c d hc hd
    have hxs : x ∈ a.src.nodes ∧ y ∈ a.src.nodes := by
      have hw := inputGraph_wf a.srcE a.srcN
      rcases hxy with h | h
      · exact hw.ends _ h
      · exact (hw.ends _ h).symm
    obtain ⟨u, cu, h0, h1, h2, h3⟩ := get x c hxs.1 hc
    obtain ⟨v, cv, k0, k1, k2, k3⟩ := get y d hxs.2 hd
    have huv : u ≠ v := by
      rintro rfl
      exact hne (X.rS.rep.wf.inj h0 k0)
    have hedge : P.S.g.Edge u v := X.inv.S.edge_of h1 k1 (by
      rcases hxy with h | h
      · exact .inl (List.mem_append_left _ (List.mem_append_left _ h))
      · exact .inr (List.mem_append_left _ (List.mem_append_left _ h)))
    obtain ⟨p, hp, q, hq, hpq⟩ := hE.edges u v cu cv
      (fun h => hfix ⟨(X.fixV_iff hA h0).mp h.1, (X.fixV_iff hA k0).mp h.2⟩) hedge huv h2 k2
    obtain ⟨pl, hpl⟩ := lab cu (List.mem_of_getElem? h2) p hp
    obtain ⟨ql, hql⟩ := lab cv (List.mem_of_getElem? k2) q hq
    refine ⟨pl, (h3 pl).mpr ⟨p, hp, hpl⟩, ql, (k3 ql).mpr ⟨q, hq, hql⟩, ?_⟩
    rcases X.tgt_edge hpq hpl hql (X.nodes hA hrn hs hf h0 h2 hp hpl) (X.nodes hA hrn hs hf k0 k2 hq hql) with e | e
    · exact e
    · exfalso
      subst e
      rw [hpl] at hql
      cases hql
      exact hE.disjoint u v cu cv huv h2 k2 p hp hq

/-- The chain of a suspended node meets its blobs. -/
theorem Ctx.suspended (X : Ctx pin a P S0 T0 isoS isoT fx) (hA : a.OK) (hrn : P.input.restrC = []) {sort : List (List Nat) → List (List Nat)} (hs : SortOK sort) {C : Cfg} {A : Params}
    {ro : Bool} {t : Tape} {cs : List (List Nat)} (hf : findEmbedding sort C A ro P.input t = .ok (true, cs)) {r : Result α}
    (hL : Lifted P S0 T0 cs r) {p v : α} {blob : List α} (hb : (p, v, blob) ∈ a.blobs pin) (hne : blob ≠ []) (hv : v ∈ a.src.nodes)
    (hfix : ¬ a.Fix v) : ∃ c, r.chain v = some c ∧ ∃ q ∈ c, q ∈ blob := by
  have hI := X.ok hA
  have hE := C01_success_is_minor_embedding hs hI hrn C A ro t cs hf
  have hcs : cs ≠ [] := by
    intro hc
    have := hE.size
    rw [hc] at this
    have h0 := hI.src_pos
    simp at this
    omega
  have hTwf : P.T.L.WF := X.inv.T.wf
  have hrb : (p, v, blob) ∈ realBlobs (a.blobs pin) := by
    unfold realBlobs
    rw [List.mem_filter]
    exact ⟨hb, by simpa using hne⟩
  obtain ⟨u, hu, _⟩ := X.rS.rep.idx_of_mem ((X.memS v).mpr hv)
  obtain ⟨cu, ls, h1, h2, h3⟩ := hL.chain hcs v u hu
  have hmS : p ∈ P.S.L.label := by
    have hl := X.inv.labS
    dsimp only at hl
    rw [hl]
    exact List.mem_append_right _ (List.mem_map.mpr ⟨_, hrb, rfl⟩)
  have hmT : p ∈ P.T.L.label := by
    have hl := X.inv.labT
    dsimp only at hl
    rw [hl]
    exact List.mem_append_right _ (List.mem_map.mpr ⟨_, hrb, rfl⟩)
  obtain ⟨i, hi, hilt⟩ := X.inv.S.idx_of_mem hmS
  obtain ⟨j, hj, _⟩ := X.inv.T.idx_of_mem hmT
  have hkv : ((i : Int), [(j : Int)]) ∈ P.input.fixedC := (X.fixed_iff hA.fkeys _).mpr (.inr ⟨_, hrb, i, j, hi, hj, rfl⟩)
  have h4 := (C04_fixed_chains_exact hs hI (Input.compatible_of_nil hrn) C A ro true t cs hf (.inl rfl)).resolve_left (by simp)
  obtain ⟨d, hd, hdm, _⟩ := h4 _ hkv
  have hd : cs[i]? = some d := by simpa using hd
  have hui : u ≠ i := by
    have l1 := X.rS.rep.wf.lt hu
    have l2 := (X.pinS hrb hi).1
    omega
  have hedge : P.S.g.Edge u i := X.inv.S.edge_of (X.idxS.mp hu).1 hi
    (.inl (List.mem_append_right _ (List.mem_map.mpr ⟨_, hrb, rfl⟩)))
  obtain ⟨z, hz, w, hw, hzw⟩ := hE.edges u i cu d (fun h => hfix ((X.fixV_iff hA hu).mp h.1)) hedge hui h1 hd
  have hwj : w = j := by
    have := (hdm w).mp hw
    dsimp only at this
    rw [List.mem_singleton] at this
    exact_mod_cast this
  subst hwj
  have hn : P.input.tgt.n = P.T.L.label.length := X.inv.T.n
  have hzl := hE.nodes cu (List.mem_of_getElem? h1) z hz
  rw [hn] at hzl
  have hzi : P.T.L.idx P.T.L.label[z] = some z := (hTwf.idx _ _).mpr (by simp [hzl])
  generalize P.T.L.label[z] = q at hzi
  have hq0 := X.nodes hA hrn hs hf hu h1 hz hzi
  refine ⟨ls, h2, q, (mem_of_forall hTwf h3 q).mpr ⟨z, hz, hzi⟩, ?_⟩
  have hp0 : p ∉ T0.L.label := (X.pinT hrb hj).2
  have hT0 : ∀ e ∈ a.tgtE ++ isoT.map fun a => (a, a), e.1 ∈ T0.L.label ∧ e.2 ∈ T0.L.label := by
    intro e he
    exact ⟨(X.rT.rep.mem _).mpr ⟨e, he, .inl rfl⟩, (X.rT.rep.mem _).mpr ⟨e, he, .inr rfl⟩⟩
  have hpins : ((realBlobs (a.blobs pin)).map fun b => b.1).Nodup := by
    have hl := X.inv.labT
    have hn := hTwf.nodup
    dsimp only at hl
    rw [hl, List.nodup_append] at hn
    exact hn.2.1
  rcases X.inv.T.edge_back hzi hj hzw with h | h
  · rcases List.mem_append.mp h with h | h
    · exact absurd (hT0 _ h).2 hp0
    · obtain ⟨b, hb', h⟩ := List.mem_flatMap.mp h
      obtain ⟨y, _, hy⟩ := List.mem_map.mp h
      cases hy
      obtain ⟨k, hk, _⟩ := X.inv.T.idx_of_mem (x := b.1) (by
        have hl := X.inv.labT
        dsimp only at hl
        rw [hl]
        exact List.mem_append_right _ (List.mem_map_of_mem hb'))
      exact absurd hq0 (X.pinT hb' hk).2
  · rcases List.mem_append.mp h with h | h
    · exact absurd (hT0 _ h).1 hp0
    · obtain ⟨b, hb', h⟩ := List.mem_flatMap.mp h
      obtain ⟨y, hyb, hy⟩ := List.mem_map.mp h
      obtain ⟨hy1, hy2⟩ := Prod.mk.inj hy
      have : b = (p, v, blob) := List.inj_on_of_nodup_map hpins hb' hrb hy1
      rw [this] at hyb
      rw [← hy2]
      exact hyb

end Py
end MM
