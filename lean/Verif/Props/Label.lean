import Verif.Cache.Label
import Verif.Props.Wrapper
import Verif.Props.CliqueCache

/-! C112: graphs labelled with coordinates. -/

namespace MM

open Cache Spec Lattice

namespace Spec

/-- Embeddings stay embeddings under renaming. -/
theorem IsChain.rename {α β : Type} {f : α → β} {nodes : List α} {edges : List (α × α)} {nodes' : List β} {edges' : List (β × β)} (hn : ∀ q ∈ nodes, f q ∈ nodes') (he : ∀ e ∈ edges, (f e.1, f e.2) ∈ edges') {c : List α}
    (h : IsChain nodes edges c) : IsChain nodes' edges' (c.map f) := by
  refine ⟨fun e => h.nonempty (List.map_eq_nil_iff.mp e), fun q hq => ?_, fun p hp q hq => ?_⟩
  · obtain ⟨x, hx, rfl⟩ := List.mem_map.mp hq
    exact hn _ (h.qubits x hx)
  · obtain ⟨x, hx, rfl⟩ := List.mem_map.mp hp
    obtain ⟨y, hy, rfl⟩ := List.mem_map.mp hq
    have := h.connected x hx y hy
    clear hy hq
    induction this with
    | refl => exact .refl
    | tail _ hs ih =>
      refine ih.tail ⟨List.mem_map_of_mem hs.1, List.mem_map_of_mem hs.2.1, ?_⟩
      exact hs.2.2.imp (he _) (he _)

theorem Adjacent.rename {α β : Type} {f : α → β} {edges : List (α × α)} {edges' : List (β × β)} (he : ∀ e ∈ edges, (f e.1, f e.2) ∈ edges') {c d : List α} (h : Adjacent edges c d) : Adjacent edges' (c.map f) (d.map f) := by
  obtain ⟨p, hp, q, hq, h⟩ := h
  exact ⟨f p, List.mem_map_of_mem hp, f q, List.mem_map_of_mem hq, h.imp (he _) (he _)⟩

theorem disjoint_rename {α β : Type} {f : α → β} {nodes : List α} (hf : ∀ p ∈ nodes, ∀ q ∈ nodes, f p = f q → p = q) {emb : List (List α)} (hm : ∀ c ∈ emb, ∀ q ∈ c, q ∈ nodes)
    (h : emb.Pairwise fun c d => ∀ q ∈ c, q ∉ d) : (emb.map (List.map f)).Pairwise fun c d => ∀ q ∈ c, q ∉ d := by
  rw [List.pairwise_map]
  refine List.Pairwise.imp_of_mem (fun {c d} hc hd hcd x hx hx' => ?_) h
  obtain ⟨p, hp, rfl⟩ := List.mem_map.mp hx
  obtain ⟨q, hq, e⟩ := List.mem_map.mp hx'
  exact hcd p hp (hf q (hm d hd q hq) p (hm c hc p hp) e ▸ hq)

theorem CliqueEmbedding.rename {α β : Type} {f : α → β} {nodes : List α} {edges : List (α × α)} {nodes' : List β} {edges' : List (β × β)} (hf : ∀ p ∈ nodes, ∀ q ∈ nodes, f p = f q → p = q) (hn : ∀ q ∈ nodes, f q ∈ nodes')
    (he : ∀ e ∈ edges, (f e.1, f e.2) ∈ edges') {emb : List (List α)} (h : CliqueEmbedding nodes edges emb) : CliqueEmbedding nodes' edges' (emb.map (List.map f)) := by
  refine ⟨fun c hc => ?_, disjoint_rename hf (fun c hc => (h.chains c hc).qubits) h.disjoint, ?_⟩
  · obtain ⟨d, hd, rfl⟩ := List.mem_map.mp hc
    exact (h.chains d hd).rename hn he
  · rw [List.pairwise_map]
    exact h.adjacent.imp (Adjacent.rename he)

theorem BicliqueEmbedding.rename {α β : Type} {f : α → β} {nodes : List α} {edges : List (α × α)} {nodes' : List β} {edges' : List (β × β)} (hf : ∀ p ∈ nodes, ∀ q ∈ nodes, f p = f q → p = q) (hn : ∀ q ∈ nodes, f q ∈ nodes')
    (he : ∀ e ∈ edges, (f e.1, f e.2) ∈ edges') {L R : List (List α)} (h : BicliqueEmbedding nodes edges L R) : BicliqueEmbedding nodes' edges' (L.map (List.map f)) (R.map (List.map f)) := by
  refine ⟨fun c hc => ?_, ?_, fun c hc d hd => ?_⟩
  · rw [← List.map_append] at hc
    obtain ⟨d, hd, rfl⟩ := List.mem_map.mp hc
    exact (h.chains d hd).rename hn he
  · rw [← List.map_append]
    exact disjoint_rename hf (fun c hc => (h.chains c hc).qubits) h.disjoint
  · obtain ⟨c, hc', rfl⟩ := List.mem_map.mp hc
    obtain ⟨d, hd', rfl⟩ := List.mem_map.mp hd
    exact (h.adjacent c hc' d hd').rename he

end Spec

/-- The converters agree with the names of qubits. -/
def Right (named : Label → Nat → Prop) (C : Option Coding) : Prop := ∀ x q, named x q → linear C x = .ok q ∧ label C q = x

theorem mapM_linear {C : Option Coding} {named : Label → Nat → Prop} (hC : Right named C) {l : List Label} (h : ∀ x ∈ l, ∃ q, named x q) : ∃ r : List Nat, l.mapM (linear C) = .ok r ∧ List.Forall₂ named l r := by
  induction l with
  | nil => exact ⟨[], rfl, .nil⟩
  | cons x l ih =>
    obtain ⟨q, hq⟩ := h x List.mem_cons_self
    obtain ⟨r, h1, h2⟩ := ih fun y hy => h y (List.mem_cons_of_mem _ hy)
    exact ⟨q :: r, by simp [List.mapM_cons, (hC x q hq).1, h1]; rfl, .cons hq h2⟩

theorem map_label {C : Option Coding} {named : Label → Nat → Prop} (hC : Right named C) {l : List Label} {r : List Nat} (h : List.Forall₂ named l r) : r.map (label C) = l := by
  induction h with
  | nil => rfl
  | cons h _ ih => rw [List.map_cons, ih, (hC _ _ h).2]

theorem mapM_pairs {C : Option Coding} {named : Label → Nat → Prop} (hC : Right named C) {l : List (Label × Label)} (h : ∀ e ∈ l, ∃ p q, named e.1 p ∧ named e.2 q) :
    ∃ r : List (Nat × Nat), (l.mapM fun e => do
      let p ← linear C e.1
      let q ← linear C e.2
      pure (p, q)) = .ok r ∧ List.Forall₂ (fun e f => named e.1 f.1 ∧ named e.2 f.2) l r := by
  induction l with
  | nil => exact ⟨[], rfl, .nil⟩
  | cons x l ih =>
    obtain ⟨p, q, hp, hq⟩ := h x List.mem_cons_self
    obtain ⟨r, h1, h2⟩ := ih fun y hy => h y (List.mem_cons_of_mem _ hy)
    refine ⟨(p, q) :: r, ?_, .cons ⟨hp, hq⟩ h2⟩
    rw [List.mapM_cons, (hC _ p hp).1, (hC _ q hq).1]
    simp only [bind, Except.bind, pure, Except.pure] at h1 ⊢
    rw [h1]

theorem forall₂_mem_right {α β : Type} {R : α → β → Prop} {l : List α} {r : List β} (h : List.Forall₂ R l r) : ∀ y ∈ r, ∃ x ∈ l, R x y := by
  induction h with
  | nil => intro y hy; cases hy
  | cons hx _ ih =>
    intro y hy
    rcases List.mem_cons.mp hy with rfl | hy
    · exact ⟨_, List.mem_cons_self, hx⟩
    · obtain ⟨x, h1, h2⟩ := ih y hy
      exact ⟨x, List.mem_cons_of_mem _ h1, h2⟩

theorem forall₂_mem_left {α β : Type} {R : α → β → Prop} {l : List α} {r : List β} (h : List.Forall₂ R l r) : ∀ x ∈ l, ∃ y ∈ r, R x y := by
  induction h with
  | nil => intro y hy; cases hy
  | cons hx _ ih =>
    intro y hy
    rcases List.mem_cons.mp hy with rfl | hy
    · exact ⟨_, List.mem_cons_self, hx⟩
    · obtain ⟨x, h1, h2⟩ := ih y hy
      exact ⟨x, List.mem_cons_of_mem _ h1, h2⟩

/-- The graph in numbers: the search gets a graph of the family, and labelling is a renaming back. -/
theorem linearGraph_ok {T : Bus.Topo} {named : Label → Nat → Prop} {C : Option Coding} (hC : Right named C) {nodes : List Label} {edges : List (Label × Label)} (hG : LabelledGraph T named nodes edges) :
    ∃ ns es, linearGraph C nodes edges = .ok (ns, es) ∧ WFGraph T ns es ∧ (∀ q ∈ ns, label C q ∈ nodes ∧ linear C (label C q) = .ok q) ∧ (∀ e ∈ es, (label C e.1, label C e.2) ∈ edges) := by
  obtain ⟨ns, n1, n2⟩ := mapM_linear hC (l := nodes) fun x hx => (hG.qubits x hx).imp fun _ h => h.1
  obtain ⟨es, e1, e2⟩ := mapM_pairs hC (l := edges) fun e he => by
    obtain ⟨p, q, h1, h2, _⟩ := hG.coupled e he
    exact ⟨p, q, h1, h2⟩
  have uniq : ∀ {x p q}, named x p → named x q → p = q := fun hp hq => by
    have := (hC _ _ hp).1.symm.trans (hC _ _ hq).1
    exact Except.ok.inj this
  refine ⟨ns, es, ?_, ⟨hG.supported, fun q hq => ?_, fun f hf => ?_, fun f hf => ?_⟩, fun q hq => ?_, fun f hf => ?_⟩
  · simp only [linearGraph, bind, Except.bind, pure, Except.pure] at e1 ⊢
    rw [n1]
    dsimp only
    rw [e1]
  · obtain ⟨x, hx, h⟩ := forall₂_mem_right n2 q hq
    obtain ⟨q', h1, h2⟩ := hG.qubits x hx
    rw [uniq h h1]
    exact h2
  · obtain ⟨e, he, h1, h2⟩ := forall₂_mem_right e2 f hf
    obtain ⟨a1, a2⟩ := hG.ends e he
    obtain ⟨p, hp, p1⟩ := forall₂_mem_left n2 _ a1
    obtain ⟨q, hq, q1⟩ := forall₂_mem_left n2 _ a2
    rw [uniq h1 p1, uniq h2 q1]
    exact ⟨hp, hq⟩
  · obtain ⟨e, he, h1, h2⟩ := forall₂_mem_right e2 f hf
    obtain ⟨p, q, a1, a2, a3⟩ := hG.coupled e he
    rw [uniq h1 a1, uniq h2 a2]
    exact a3
  · obtain ⟨x, hx, h⟩ := forall₂_mem_right n2 q hq
    obtain ⟨h1, h2⟩ := hC x q h
    rw [h2]
    exact ⟨hx, h1⟩
  · obtain ⟨e, he, h1, h2⟩ := forall₂_mem_right e2 f hf
    rw [(hC _ _ h1).2, (hC _ _ h2).2]
    exact he

/-- The labels of different qubits are different. -/
theorem label_inj {C : Option Coding} {ns : List Nat} (h : ∀ q ∈ ns, linear C (label C q) = .ok q) : ∀ p ∈ ns, ∀ q ∈ ns, label C p = label C q → p = q := by
  intro p hp q hq e
  have := h p hp
  rw [e, h q hq] at this
  exact (Except.ok.inj this).symm

/-- C112, which labels are understood: integers, coordinates, and for Pegasus nice coordinates; others raise `ValueError`. -/
theorem C112_labels (K : Converters) (T : Bus.Topo) (l : Labels) :
    (chooseCoding K T l = .error .value ↔ l = .other ∨ l = .nice ∧ ∀ d off, T ≠ .pegasus d off) ∧ (chooseCoding K T .int = .ok none) ∧
    (∀ e, chooseCoding K T l = .error e → e = .value) := by
  cases T <;> cases l <;> simp [chooseCoding]

/-- Integer labels need no converter. -/
theorem C112_integers (T : Bus.Topo) (nice : List Int → Nat → Prop) : Right (Named T nice .int) none := by
  intro x q h
  cases x with
  | int n => cases h; exact ⟨rfl, rfl⟩
  | tuple l => exact h.elim

/-- What is known of the converters of dwave.graphs: those for the rows, columns and tile size of a Chimera graph and for the rows of a Pegasus graph agree with the names of its qubits, and those for the rows of a Zephyr graph
if it has tiles of 4. `nice d` is the naming of the qubits of a Pegasus graph with `d` rows by nice coordinates. -/
structure Trusted (K : Converters) (nice : Nat → List Int → Nat → Prop) : Prop where
  chimera : ∀ m n t N, Right (Named (.chimera m n t) N .coordinate) (some (K.chimera m n t))
  pegasus : ∀ d off N, Right (Named (.pegasus d off) N .coordinate) (some (K.pegasus d))
  nice : ∀ d off, Right (Named (.pegasus d off) (nice d) .nice) (some (K.nice d))
  zephyr : ∀ d N, Right (Named (.zephyr d 4) N .coordinate) (some (K.zephyr d))

/-- C112: the converters that are selected agree with the names of the qubits, but for Zephyr graphs with coordinates only if they have tiles of 4. -/
theorem C112_chosen {K : Converters} {nice : Nat → List Int → Nat → Prop} (hK : Trusted K nice) (T : Bus.Topo) (l : Labels) (hz : ∀ d t, T = .zephyr d t → l = .coordinate → t = 4) {N : List Int → Nat → Prop}
    (hN : ∀ d off, T = .pegasus d off → N = nice d) {C : Option Coding} (h : chooseCoding K T l = .ok C) : Right (Named T N l) C := by
  cases l with
  | int => rw [(C112_labels K T .int).2.1] at h; cases h; exact C112_integers T N
  | other => rw [(C112_labels K T .other).1.mpr (.inl rfl)] at h; cases h
  | coordinate =>
    cases T with
    | chimera m n t => cases h; exact hK.chimera m n t N
    | pegasus d off => cases h; exact hK.pegasus d off N
    | zephyr d t =>
      obtain rfl := hz d t rfl rfl
      cases h; exact hK.zephyr d N
  | nice =>
    cases T with
    | chimera m n t => cases h
    | pegasus d off =>
      obtain rfl := hN d off rfl
      cases h; exact hK.nice d off
    | zephyr d t => cases h

/-- C112: if the converters that are selected agree with the names of the qubits, then for every graph of the family with nodes so named the cache is computed, and every clique asked for is either too large for all embeddings in it, and
nothing is returned, or the answer has the names asked for and is valid in the graph as it is labelled. -/
theorem C112_cliques {T : Bus.Topo} {named : Label → Nat → Prop} {C : Option Coding} (hC : Right named C) {nodes : List Label} {edges : List (Label × Label)} (hG : LabelledGraph T named nodes edges) {bound : Nat} (hb : 0 < bound)
    {D D' : Bus.Draws} (hD : D.Perm) (hD' : D'.Perm) : ∃ ns es r, linearGraph C nodes edges = .ok (ns, es) ∧ Bus.bestCliques T bound D D' ns es = .ok r ∧
      ∀ {κ : Type} [DecidableEq κ] (names : List κ), names.Nodup → ∃ d, findLabelled C (make r) names = .ok d ∧
        ((∀ e ∈ r, e.length < names.length) ∧ d = [] ∨ d.map Prod.fst = names ∧ CliqueEmbedding nodes edges (d.map Prod.snd)) := by
  obtain ⟨ns, es, h1, h2, h3, h4⟩ := linearGraph_ok hC hG
  obtain ⟨r, _, r1, _⟩ := C60_cached (α := Nat) h2 hb hD hD' []
  refine ⟨ns, es, r, h1, r1, fun {κ} _ names hn => ?_⟩
  obtain ⟨r', res, g1, g2, g3⟩ := C60_cached h2 hb hD hD' names
  rw [r1] at g1; cases g1
  refine ⟨relabel C (toDict res), by simp only [findLabelled, g2, ofCache, bind, Except.bind]; rfl, ?_⟩
  rcases g3 with ⟨g3, rfl⟩ | ⟨g3, g4, _⟩
  · exact .inl ⟨g3, rfl⟩
  · right
    rw [toDict_self (by rw [g3]; exact hn)]
    refine ⟨by rw [← g3]; simp [relabel], ?_⟩
    have := g4.rename (f := label C) (label_inj fun q hq => (h3 q hq).2) (fun q hq => (h3 q hq).1) h4
    simpa [relabel, List.map_map, Function.comp_def] using this

/-- C112: the same for bicliques, for which there is a cache unless the graph has no couplers. -/
theorem C112_bicliques {T : Bus.Topo} {named : Label → Nat → Prop} {C : Option Coding} (hC : Right named C) {nodes : List Label} {edges : List (Label × Label)} (hG : LabelledGraph T named nodes edges)
    {ns : List Nat} {es : List (Nat × Nat)} (hl : linearGraph C nodes edges = .ok (ns, es)) {embs : List ((Nat × Nat) × List (List Nat))} (hi : BicliqueItems ns es embs) (hne : embs ≠ []) :
    ∃ c, makeBicliques embs = .ok c ∧ ∀ {κ : Type} [DecidableEq κ] (left right : List κ), (left ++ right).Nodup → (left ≠ [] ∨ right ≠ []) → (∃ p ∈ embs, max left.length right.length ≤ min p.1.1 p.1.2) →
      ∃ A B d, findBicliqueLabelled C c left right = .ok d ∧ d.Perm (left.zip A ++ right.zip B) ∧ A.length = left.length ∧ B.length = right.length ∧ BicliqueEmbedding nodes edges A B := by
  obtain ⟨ns', es', h1, h2, h3, h4⟩ := linearGraph_ok hC hG
  rw [hl] at h1; cases h1
  obtain ⟨c, hc, _⟩ := C38_partial (α := Nat) hi hne [] []
  refine ⟨c, hc, fun {κ} _ left right hn h0 hp => ?_⟩
  obtain ⟨c', hc', g, _⟩ := C38_partial hi hne left right
  rw [hc] at hc'; cases hc'
  obtain ⟨A, B, items, g1, g2, g3, g4, g5, _⟩ := g h0 hp
  have hk : (items.map Prod.fst).Nodup := by
    rw [(g2.map _).nodup_iff, List.map_append, List.map_fst_zip (by omega), List.map_fst_zip (by omega)]
    exact hn
  refine ⟨A.map (List.map (label C)), B.map (List.map (label C)), relabel C items, ?_, ?_, by simpa using g3, by simpa using g4, g5.rename (label_inj fun q hq => (h3 q hq).2) (fun q hq => (h3 q hq).1) h4⟩
  · simp only [findBicliqueLabelled, g1, ofCache, bind, Except.bind, toDict_self hk]; rfl
  · have := g2.map fun p : κ × List Nat => (p.1, p.2.map (label C))
    rw [List.map_append] at this
    rw [relabel, List.zip_map_right, List.zip_map_right]
    exact this

/-- C112: labelling and back is the identity on embeddings into the graph, so that embeddings returned can be inserted again. -/
theorem C112_round {T : Bus.Topo} {named : Label → Nat → Prop} {C : Option Coding} (hC : Right named C) {nodes : List Label} {edges : List (Label × Label)} (hG : LabelledGraph T named nodes edges) :
    (∀ emb : List (List Label), (∀ c ∈ emb, ∀ x ∈ c, x ∈ nodes) → ∃ e, delabel C emb = .ok e ∧ e.map (List.map (label C)) = emb) ∧
    ∃ ns es, linearGraph C nodes edges = .ok (ns, es) ∧ ∀ e : Emb, (∀ c ∈ e, ∀ q ∈ c, q ∈ ns) → (delabel C (e.map (List.map (label C))) = .ok e) ∧ (∀ c, insertLabelled C c (e.map (List.map (label C))) = ofCache (insertDirect c e)) := by
  constructor
  · intro emb hm
    induction emb with
    | nil => exact ⟨[], rfl, rfl⟩
    | cons c emb ih =>
      obtain ⟨e, h1, h2⟩ := ih fun d hd => hm d (List.mem_cons_of_mem _ hd)
      obtain ⟨r, r1, r2⟩ := mapM_linear hC (l := c) fun x hx => (hG.qubits x (hm c List.mem_cons_self x hx)).imp fun _ h => h.1
      refine ⟨r :: e, ?_, ?_⟩
      · simp only [delabel] at h1
        simp only [delabel, List.mapM_cons, r1, h1, bind, Except.bind]; rfl
      · rw [List.map_cons, h2]
        rw [map_label hC r2]
  · obtain ⟨ns, es, h1, h2, h3, h4⟩ := linearGraph_ok hC hG
    refine ⟨ns, es, h1, fun e he => ?_⟩
    have key : delabel C (e.map (List.map (label C))) = .ok e := by
      induction e with
      | nil => rfl
      | cons c e ih =>
        have hc : (c.map (label C)).mapM (linear C) = .ok c := by
          have hc := he c List.mem_cons_self
          clear ih he
          induction c with
          | nil => rfl
          | cons q c ih =>
            rw [List.map_cons, List.mapM_cons, (h3 q (hc q List.mem_cons_self)).2, ih fun x hx => hc x (List.mem_cons_of_mem _ hx)]
            rfl
        have := ih fun d hd => he d (List.mem_cons_of_mem _ hd)
        simp only [delabel] at this
        simp only [delabel, List.map_cons, List.mapM_cons, hc, this, bind, Except.bind]; rfl
    exact ⟨key, fun c => by simp only [insertLabelled, key, bind, Except.bind]⟩

/-- What `get_clique_cache` exports are numbers, whatever the labels of the graph. -/
def exported (embs : List Emb) : List (List (List Label)) := embs.map fun e => e.map (List.map Label.int)

theorem delabel_int (e : Emb) : delabel none (e.map (List.map Label.int)) = .ok e := by
  have hc : ∀ c : List Nat, (c.map Label.int).mapM (linear none) = .ok c := by
    intro c
    induction c with
    | nil => rfl
    | cons q c ih => rw [List.map_cons, List.mapM_cons, ih]; rfl
  induction e with
  | nil => rfl
  | cons c e ih =>
    simp only [delabel] at ih
    simp only [delabel, List.map_cons, List.mapM_cons, hc, ih, bind, Except.bind]; rfl

/-- C112, importing into a graph with integer labels: as C36 describes. -/
theorem C112_import (s : Store) (embs : List Emb) (write : Bool) : updateLabelled none s (exported embs) write = ofCache (update s embs write) := by
  have h : ∀ (c : Cliques) (l : List Emb), (exported l).foldlM (insertLabelled none) c = ofCache (l.foldlM insertDirect c) := by
    intro c l
    induction l generalizing c with
    | nil => rfl
    | cons e l ih =>
      simp only [exported, List.map_cons, List.foldlM_cons, insertLabelled, delabel_int, bind, Except.bind]
      cases insertDirect c e with
      | error e => rfl
      | ok c' => exact ih c'
  simp only [updateLabelled, update, h, bind, Except.bind]
  cases (embs.foldlM insertDirect (ensureBlank s).2) <;> rfl

/-- C112, a fault: into a graph with coordinate labels an exported cache with any qubit in it cannot be imported, `TypeError`. -/
theorem C112_import_fails (K : Coding) (s s' : Store) (embs : List Emb) (write : Bool) (h : ∃ e ∈ embs, ∃ c ∈ e, c ≠ []) : updateLabelled (some K) s (exported embs) write ≠ .ok s' := by
  have hc : ∀ c : List Nat, c ≠ [] → (c.map Label.int).mapM (linear (some K)) = .error .type := by
    intro c hc
    cases c with
    | nil => exact absurd rfl hc
    | cons q c => rfl
  have hd : ∀ e : Emb, (∃ c ∈ e, c ≠ []) → delabel (some K) (e.map (List.map Label.int)) = .error .type := by
    intro e
    induction e with
    | nil => rintro ⟨c, hc, _⟩; cases hc
    | cons c e ih =>
      intro he
      by_cases h0 : c = []
      · subst h0
        have := ih (by
          obtain ⟨d, hd, h1⟩ := he
          rcases List.mem_cons.mp hd with rfl | hd
          · exact absurd rfl h1
          · exact ⟨d, hd, h1⟩)
        simp only [delabel] at this
        simp only [delabel, List.map_cons, List.mapM_cons, this, bind, Except.bind]; rfl
      · simp only [delabel, List.map_cons, List.mapM_cons, hc c h0, bind, Except.bind]
  have key : ∀ (l : List Emb) (c : Cliques), (∃ e ∈ l, ∃ c ∈ e, c ≠ []) → ∀ c', (exported l).foldlM (insertLabelled (some K)) c ≠ .ok c' := by
    intro l
    induction l with
    | nil => rintro c ⟨e, he, _⟩; cases he
    | cons e l ih =>
      intro c he c' hr
      simp only [exported, List.map_cons, List.foldlM_cons, insertLabelled, bind, Except.bind] at hr
      by_cases h0 : ∃ c ∈ e, c ≠ []
      · rw [hd e h0] at hr; cases hr
      · obtain ⟨e', he', h1⟩ := he
        rcases List.mem_cons.mp he' with rfl | he'
        · exact h0 h1
        · split at hr
          · cases hr
          · rename_i c1 _
            exact ih c1 ⟨e', he', h1⟩ c' hr
  intro hr
  simp only [updateLabelled, bind, Except.bind] at hr
  split at hr
  · cases hr
  · rename_i c1 hc1
    exact key _ _ h _ hc1

/-- C112, a fault: converters that get the number of rows only cannot be right for Zephyr graphs of two tile sizes. -/
theorem C112_zephyr {d t t' : Nat} (hd : 0 < d) (ht : 0 < t) (ht' : 0 < t') (hne : t ≠ t') (K : Converters) (nice : List Int → Nat → Prop) {C C' : Option Coding} (h : chooseCoding K (.zephyr d t) .coordinate = .ok C)
    (h' : chooseCoding K (.zephyr d t') .coordinate = .ok C') : ¬ (Right (Named (.zephyr d t) nice .coordinate) C ∧ Right (Named (.zephyr d t') nice .coordinate) C') := by
  cases h; cases h'
  rintro ⟨h1, h2⟩
  have e1 := (h1 (.tuple [1, 0, 0, 0, 0]) (zephyrNum d t 1 0 0 0) ⟨1, 0, 0, 0, 0, by omega, by omega, ht, by omega, hd, by simp, rfl⟩).1
  have e2 := (h2 (.tuple [1, 0, 0, 0, 0]) (zephyrNum d t' 1 0 0 0) ⟨1, 0, 0, 0, 0, by omega, by omega, ht', by omega, hd, by simp, rfl⟩).1
  have := Except.ok.inj (e1.symm.trans e2)
  simp only [zephyrNum] at this
  have h3 := Nat.eq_of_mul_eq_mul_right hd (show (1 * (2 * d + 1) * (2 * t)) * d = (1 * (2 * d + 1) * (2 * t')) * d by simpa using this)
  have h4 := Nat.eq_of_mul_eq_mul_left (show 0 < 1 * (2 * d + 1) by omega) h3
  omega

theorem mapM_mem {α β ε : Type} {f : α → Except ε β} {l : List α} {r : List β} (h : l.mapM f = .ok r) {x : α} (hx : x ∈ l) : ∃ y ∈ r, f x = .ok y := by
  induction l generalizing r with
  | nil => cases hx
  | cons a l ih =>
    rw [List.mapM_cons] at h
    cases ha : f a with
    | error e => rw [ha] at h; cases h
    | ok b =>
      cases hl : l.mapM f with
      | error e => rw [ha, hl] at h; cases h
      | ok r' =>
        rw [ha, hl] at h
        cases h
        rcases List.mem_cons.mp hx with rfl | hx
        · exact ⟨b, List.mem_cons_self, ha⟩
        · obtain ⟨y, hy, e⟩ := ih hl hx
          exact ⟨y, List.mem_cons_of_mem _ hy, e⟩

theorem foldlM_stuck {α β ε : Type} {f : β → α → Except ε β} {l : List α} {x : α} (hx : x ∈ l) {e : ε} (h : ∀ b, f b x = .error e) : ∀ b b', l.foldlM f b ≠ .ok b' := by
  induction l with
  | nil => cases hx
  | cons a l ih =>
    intro b b' hr
    rw [List.foldlM_cons] at hr
    rcases List.mem_cons.mp hx with rfl | hx
    · rw [h b] at hr; cases hr
    · cases ha : f b a with
      | error e => rw [ha] at hr; cases hr
      | ok c => rw [ha] at hr; exact ih hx c b' hr

/-- C112: with converters that are right for tiles of 4, as those for the rows alone are, every Zephyr graph with smaller tiles and coordinate labels that contains a certain coupler ends the process: `throw 10` in a constructor that is
declared without `except +`. -/
theorem C112_zephyr_dies {d t : Nat} (hd : 0 < d) (ht : 0 < t) (ht4 : t < 4) (K : Converters) (nice : List Int → Nat → Prop) {C : Option Coding} (h : chooseCoding K (.zephyr d t) .coordinate = .ok C)
    (hC : Right (Named (.zephyr d 4) nice .coordinate) C) {nodes : List Label} {edges : List (Label × Label)}
    (he : (Label.tuple [0, 2 * d, t - 1, 1, d - 1], Label.tuple [1, 2 * d, t - 1, 1, d - 1]) ∈ edges) {ns : List Nat} {es : List (Nat × Nat)} (hl : linearGraph C nodes edges = .ok (ns, es)) :
    (∃ p q, Coordinates (.zephyr d t) [0, 2 * d, t - 1, 1, d - 1] p ∧ Coordinates (.zephyr d t) [1, 2 * d, t - 1, 1, d - 1] q ∧ Coupled (.zephyr d t) p q) ∧
    (∃ e ∈ es, ∀ M, Bus.processEdge (.zephyr d t) M e = .error .thrown) ∧ ∀ M, Bus.buildMasks (.zephyr d t) ns es ≠ .ok M := by
  have nm : ∀ u : Nat, u < 2 → ∀ t', t ≤ t' → Coordinates (.zephyr d t') [(u : Int), 2 * d, t - 1, 1, d - 1] (zephyrNum d t' u (2 * d) (2 * t - 1) (d - 1)) := by
    intro u hu t' htt
    refine ⟨u, 2 * d, t - 1, 1, d - 1, hu, by omega, by omega, by omega, by omega, ?_, by rw [show 2 * (t - 1) + 1 = 2 * t - 1 by omega]⟩
    rw [Nat.cast_sub ht, Nat.cast_sub hd]
    push_cast
    rfl
  obtain ⟨e, e1, e2⟩ : ∃ e ∈ es, e = (zephyrNum d 4 0 (2 * d) (2 * t - 1) (d - 1), zephyrNum d 4 1 (2 * d) (2 * t - 1) (d - 1)) := by
    simp only [linearGraph, bind, Except.bind] at hl
    split at hl
    · cases hl
    · split at hl
      · cases hl
      · rename_i es' hes
        cases hl
        obtain ⟨y, hy, h2⟩ := mapM_mem hes he
        have n0 := (hC _ _ (show Named (.zephyr d 4) nice .coordinate (.tuple [0, 2 * d, t - 1, 1, d - 1]) _ from nm 0 (by omega) 4 (by omega))).1
        have n1 := (hC _ _ (show Named (.zephyr d 4) nice .coordinate (.tuple [1, 2 * d, t - 1, 1, d - 1]) _ from nm 1 (by omega) 4 (by omega))).1
        simp only [n0, n1] at h2
        exact ⟨y, hy, (Except.ok.inj h2).symm⟩
  have hthrow : ∀ M, Bus.processEdge (.zephyr d t) M e = .error .thrown := by
    intro M
    have dec : ∀ B : Nat, 16 * d + 2 * t - 1 ≤ B → B % 2 = 1 → ∃ w k, Bus.zephyrCoordinates d t (B * d + (d - 1)) = (true, w, k, d - 1) ∧ k < 6 ∧ k % 2 = 1 := by
      intro B hB hodd
      have h1 : (B * d + (d - 1)) / d = B := by
        rw [Nat.mul_comm, Nat.mul_add_div hd, Nat.div_eq_of_lt (by omega), Nat.add_zero]
      have h2 : (B * d + (d - 1)) % d = d - 1 := by
        rw [Nat.mul_comm, Nat.mul_add_mod, Nat.mod_eq_of_lt (by omega)]
      refine ⟨B / (2 * t) % (2 * d + 1), B % (2 * t), ?_, ?_, ?_⟩
      · have h3 : B / (2 * t) / (2 * d + 1) ≠ 0 := by
          rw [Nat.div_div_eq_div_mul]
          have h4 : 2 * t * (2 * d + 1) ≤ B := by
            have h5 : t * d ≤ 3 * d := Nat.mul_le_mul_right d (by omega)
            have h6 : 2 * t * (2 * d + 1) = 4 * (t * d) + 2 * t := by ring
            omega
          have := Nat.div_pos h4 (Nat.mul_pos (by omega) (by omega))
          omega
        simp only [Bus.zephyrCoordinates, Bus.linearLinemajor, h1, h2, decide_eq_true h3]
      · have := Nat.mod_lt B (show 0 < 2 * t by omega)
        omega
      · rw [Nat.mod_mod_of_dvd _ ⟨t, rfl⟩]
        exact hodd
    have xr : ∀ x < 6, x % 2 = 1 → (x ^^^ 1) % 2 = 0 := by decide
    obtain ⟨pw, pk, p1, p2, p3⟩ := dec ((0 * (2 * d + 1) + 2 * d) * (2 * 4) + (2 * t - 1)) (by omega) (by omega)
    obtain ⟨qw, qk, q1, q2, q3⟩ := dec ((1 * (2 * d + 1) + 2 * d) * (2 * 4) + (2 * t - 1)) (by omega) (by omega)
    have hle : zephyrNum d 4 0 (2 * d) (2 * t - 1) (d - 1) ≤ zephyrNum d 4 1 (2 * d) (2 * t - 1) (d - 1) :=
      Nat.add_le_add_right (Nat.mul_le_mul_right d (by omega)) _
    subst e2
    simp only [Bus.processEdge, Nat.min_eq_left hle, Nat.max_eq_right hle]
    simp only [zephyrNum, p1, q1]
    have hx : pk ≠ qk ^^^ 1 := by
      intro hx
      have := xr qk q2 q3
      omega
    rw [if_pos trivial, if_neg (by omega), if_neg (fun h => hx h.2.1)]
  refine ⟨⟨_, _, nm 0 (by omega) t (Nat.le_refl _), nm 1 (by omega) t (Nat.le_refl _), ?_⟩, ⟨e, e1, hthrow⟩, fun M hM => ?_⟩
  · exact .cross (by omega) (by omega) (by omega) (by omega) (by omega) (by omega) (by omega) (by omega) (by omega) (by omega)
  · simp only [Bus.buildMasks, bind, Except.bind] at hM
    split at hM
    · cases hM
    · split at hM
      · cases hM
      · rename_i M' hM'
        exact foldlM_stuck e1 hthrow _ _ hM'

namespace Demo

/-- Converters of the coordinates of one Chimera cell with shores of 2. -/
def cellCoding : Coding where
  toLinear l := if l = [0, 0, 0, 0] then 0 else if l = [0, 0, 0, 1] then 1 else if l = [0, 0, 1, 0] then 2 else 3
  ofLinear q := [0, 0, (q / 2 : Nat), (q % 2 : Nat)]

theorem cellCoding_right (nice : List Int → Nat → Prop) : Right (Named (.chimera 1 1 2) nice .coordinate) (some cellCoding) := by
  intro x q h
  cases x with
  | int n => exact h.elim
  | tuple l =>
    obtain ⟨y, x, u, k, hy, hx, hu, hk, rfl, rfl⟩ := h
    obtain rfl : y = 0 := by omega
    obtain rfl : x = 0 := by omega
    rcases (show u = 0 ∨ u = 1 by omega) with rfl | rfl <;> rcases (show k = 0 ∨ k = 1 by omega) with rfl | rfl <;> decide

/-- One cell but for a coupler. -/
def cellNodes : List Label := [.tuple [0, 0, 0, 0], .tuple [0, 0, 0, 1], .tuple [0, 0, 1, 0]]

/-- Its couplers. -/
def cellEdges : List (Label × Label) := [(.tuple [0, 0, 1, 0], .tuple [0, 0, 0, 0]), (.tuple [0, 0, 0, 1], .tuple [0, 0, 1, 0])]

theorem cell_labelled (nice : List Int → Nat → Prop) : LabelledGraph (.chimera 1 1 2) (Named (.chimera 1 1 2) nice .coordinate) cellNodes cellEdges := by
  have nm : ∀ u k : Nat, u < 2 → k < 2 → Named (.chimera 1 1 2) nice .coordinate (.tuple [0, 0, (u : Int), (k : Int)]) (chimeraNum 1 2 0 0 u k) := fun u k hu hk =>
    ⟨0, 0, u, k, by omega, by omega, hu, hk, rfl, rfl⟩
  refine ⟨show 2 ≤ 8 by decide, fun x hx => ?_, by decide, fun e he => ?_⟩
  · simp only [cellNodes, List.mem_cons, List.not_mem_nil, or_false] at hx
    rcases hx with rfl | rfl | rfl
    · exact ⟨_, nm 0 0 (by omega) (by omega), show chimeraNum 1 2 0 0 0 0 < 2 * 2 * 1 * 1 by decide⟩
    · exact ⟨_, nm 0 1 (by omega) (by omega), show chimeraNum 1 2 0 0 0 1 < 2 * 2 * 1 * 1 by decide⟩
    · exact ⟨_, nm 1 0 (by omega) (by omega), show chimeraNum 1 2 0 0 1 0 < 2 * 2 * 1 * 1 by decide⟩
  · simp only [cellEdges, List.mem_cons, List.not_mem_nil, or_false] at he
    rcases he with rfl | rfl
    · exact ⟨_, _, nm 1 0 (by omega) (by omega), nm 0 0 (by omega) (by omega), .inr (.cell (by omega) (by omega) (by omega) (by omega))⟩
    · exact ⟨_, _, nm 0 1 (by omega) (by omega), nm 1 0 (by omega) (by omega), .inl (.cell (by omega) (by omega) (by omega) (by omega))⟩

end Demo

example : findLabelled (some Demo.cellCoding) (make [[], [[0], [2]]]) ["a", "b"] = .ok [("a", [.tuple [0, 0, 0, 0]]), ("b", [.tuple [0, 0, 1, 0]])] := by decide +kernel

example : Right (Named (.chimera 1 1 2) (fun _ _ => False) .coordinate) (some Demo.cellCoding) ∧ LabelledGraph (.chimera 1 1 2) (Named (.chimera 1 1 2) (fun _ _ => False) .coordinate) Demo.cellNodes Demo.cellEdges ∧
    linearGraph (some Demo.cellCoding) Demo.cellNodes Demo.cellEdges = .ok ([0, 1, 2], [(2, 0), (1, 2)]) :=
  ⟨Demo.cellCoding_right _, Demo.cell_labelled _, by decide +kernel⟩

example : updateLabelled (some Demo.cellCoding) ⟨none, none⟩ (exported [[], [[0], [2]]]) true = .error .type ∧ updateLabelled none ⟨none, none⟩ (exported [[], [[0], [2]]]) true ≠ .error .type := by decide +kernel

namespace Demo

/-- Converters of Zephyr coordinates for tiles of `t`. -/
def zephyrCoding (d t : Nat) : Coding where
  toLinear
    | [u, w, k, j, z] => zephyrNum d t u.toNat w.toNat (2 * k.toNat + j.toNat) z.toNat
    | _ => 0
  ofLinear q :=
    let c := Bus.zephyrCoordinates d t q
    [if c.1 then 1 else 0, c.2.1, (c.2.2.1 / 2 : Nat), (c.2.2.1 % 2 : Nat), c.2.2.2]

theorem zephyrCoding_right (d t : Nat) (nice : List Int → Nat → Prop) : Right (Named (.zephyr d t) nice .coordinate) (some (zephyrCoding d t)) := by
  intro x q h
  cases x with
  | int n => exact h.elim
  | tuple l =>
    obtain ⟨u, w, k, j, z, hu, hw, hk, hj, hz, rfl, rfl⟩ := h
    refine ⟨by simp [linear, zephyrCoding], ?_⟩
    have h1 : (((u * (2 * d + 1) + w) * (2 * t) + (2 * k + j)) * d + z) / d = (u * (2 * d + 1) + w) * (2 * t) + (2 * k + j) := by
      rw [Nat.mul_comm, Nat.mul_add_div (by omega), Nat.div_eq_of_lt hz, Nat.add_zero]
    have h2 : (((u * (2 * d + 1) + w) * (2 * t) + (2 * k + j)) * d + z) % d = z := by
      rw [Nat.mul_comm, Nat.mul_add_mod, Nat.mod_eq_of_lt hz]
    have h3 : ((u * (2 * d + 1) + w) * (2 * t) + (2 * k + j)) / (2 * t) = u * (2 * d + 1) + w := by
      rw [Nat.mul_comm, Nat.mul_add_div (by omega), Nat.div_eq_of_lt (by omega), Nat.add_zero]
    have h4 : ((u * (2 * d + 1) + w) * (2 * t) + (2 * k + j)) % (2 * t) = 2 * k + j := by
      rw [Nat.mul_comm, Nat.mul_add_mod, Nat.mod_eq_of_lt (by omega)]
    have h5 : (u * (2 * d + 1) + w) / (2 * d + 1) = u := by
      rw [Nat.mul_comm, Nat.mul_add_div (by omega), Nat.div_eq_of_lt hw, Nat.add_zero]
    have h6 : (u * (2 * d + 1) + w) % (2 * d + 1) = w := by
      rw [Nat.mul_comm, Nat.mul_add_mod, Nat.mod_eq_of_lt hw]
    simp only [label, zephyrCoding, Bus.zephyrCoordinates, Bus.linearLinemajor, zephyrNum, h1, h2, h3, h4, h5, h6, show (2 * k + j) / 2 = k by omega, show (2 * k + j) % 2 = j by omega]
    rcases (show u = 0 ∨ u = 1 by omega) with rfl | rfl <;> simp

/-- Converters of Chimera coordinates. -/
def chimeraCoding (n t : Nat) : Coding where
  toLinear
    | [y, x, u, k] => chimeraNum n t y.toNat x.toNat u.toNat k.toNat
    | _ => 0
  ofLinear q := [(q / t / 2 / n : Nat), (q / t / 2 % n : Nat), (q / t % 2 : Nat), (q % t : Nat)]

theorem chimeraCoding_right (m n t : Nat) (nice : List Int → Nat → Prop) : Right (Named (.chimera m n t) nice .coordinate) (some (chimeraCoding n t)) := by
  intro x q h
  cases x with
  | int n => exact h.elim
  | tuple l =>
    obtain ⟨y, x, u, k, hy, hx, hu, hk, rfl, rfl⟩ := h
    refine ⟨by simp [linear, chimeraCoding], ?_⟩
    have h1 : (((y * n + x) * 2 + u) * t + k) / t = (y * n + x) * 2 + u := by
      rw [Nat.mul_comm, Nat.mul_add_div (by omega), Nat.div_eq_of_lt hk, Nat.add_zero]
    have h2 : (((y * n + x) * 2 + u) * t + k) % t = k := by
      rw [Nat.mul_comm, Nat.mul_add_mod, Nat.mod_eq_of_lt hk]
    have h3 : (y * n + x) / n = y := by
      rw [Nat.mul_comm, Nat.mul_add_div (by omega), Nat.div_eq_of_lt hx, Nat.add_zero]
    have h4 : (y * n + x) % n = x := by
      rw [Nat.mul_comm, Nat.mul_add_mod, Nat.mod_eq_of_lt hx]
    simp only [label, chimeraCoding, chimeraNum, h1, h2, show ((y * n + x) * 2 + u) / 2 = y * n + x by omega, show ((y * n + x) * 2 + u) % 2 = u by omega, h3, h4]

/-- Converters of Pegasus coordinates. -/
def pegasusCoding (d : Nat) : Coding where
  toLinear
    | [u, w, k, z] => pegasusNum d u.toNat w.toNat k.toNat z.toNat
    | _ => 0
  ofLinear q := [(q / (d - 1) / 12 / d : Nat), (q / (d - 1) / 12 % d : Nat), (q / (d - 1) % 12 : Nat), (q % (d - 1) : Nat)]

theorem pegasusCoding_right (d : Nat) (off : Bool → Nat → Nat) (nice : List Int → Nat → Prop) : Right (Named (.pegasus d off) nice .coordinate) (some (pegasusCoding d)) := by
  intro x q h
  cases x with
  | int n => exact h.elim
  | tuple l =>
    obtain ⟨u, w, k, z, hu, hw, hk, hz, rfl, rfl⟩ := h
    refine ⟨by simp [linear, pegasusCoding], ?_⟩
    have h1 : (((u * d + w) * 12 + k) * (d - 1) + z) / (d - 1) = (u * d + w) * 12 + k := by
      rw [Nat.mul_comm, Nat.mul_add_div (by omega), Nat.div_eq_of_lt hz, Nat.add_zero]
    have h2 : (((u * d + w) * 12 + k) * (d - 1) + z) % (d - 1) = z := by
      rw [Nat.mul_comm, Nat.mul_add_mod, Nat.mod_eq_of_lt hz]
    have h3 : (u * d + w) / d = u := by
      rw [Nat.mul_comm, Nat.mul_add_div (by omega), Nat.div_eq_of_lt hw, Nat.add_zero]
    have h4 : (u * d + w) % d = w := by
      rw [Nat.mul_comm, Nat.mul_add_mod, Nat.mod_eq_of_lt hw]
    simp only [label, pegasusCoding, pegasusNum, h1, h2, show ((u * d + w) * 12 + k) / 12 = u * d + w by omega, show ((u * d + w) * 12 + k) % 12 = k by omega, h3, h4]

end Demo

/-- There are converters as `C112_chosen` assumes them; the nice names here are `(0, w, u, k, z)` for all qubits. -/
example : ∃ K nice, Trusted K nice ∧ (∃ l q, nice 2 l q) ∧ chooseCoding K (.pegasus 2 fun _ _ => 0) .nice = .ok (some (K.nice 2)) := by
  refine ⟨⟨fun _ n t => Demo.chimeraCoding n t, Demo.pegasusCoding, fun d => ⟨fun l => (Demo.pegasusCoding d).toLinear l.tail, fun q => 0 :: (Demo.pegasusCoding d).ofLinear q⟩, fun d => Demo.zephyrCoding d 4⟩,
    fun d l q => ∃ l', l = 0 :: l' ∧ Coordinates (.pegasus d fun _ _ => 0) l' q,
    ⟨Demo.chimeraCoding_right, Demo.pegasusCoding_right, fun d off x q h => ?_, fun d N => Demo.zephyrCoding_right d 4 N⟩,
    ⟨[0, 0, 0, 0, 0], 0, [0, 0, 0, 0], rfl, 0, 0, 0, 0, by decide, by decide, by decide, by decide, rfl, by decide⟩, rfl⟩
  cases x with
  | int n => exact h.elim
  | tuple l =>
    obtain ⟨l', rfl, h⟩ := h
    have := Demo.pegasusCoding_right d (fun _ _ => 0) (fun _ _ => False) (.tuple l') q h
    simp only [linear, label, Except.ok.injEq, Label.tuple.injEq] at this ⊢
    exact ⟨this.1, by rw [this.2]⟩

/-- Two qubits of the smallest Zephyr graph with tiles of 1 are enough. -/
example : (∀ nice, Right (Named (.zephyr 1 4) nice .coordinate) (some (Demo.zephyrCoding 1 4))) ∧
    linearGraph (some (Demo.zephyrCoding 1 4)) [.tuple [0, 2, 0, 1, 0], .tuple [1, 2, 0, 1, 0]] [(.tuple [0, 2, 0, 1, 0], .tuple [1, 2, 0, 1, 0])] = .ok ([17, 41], [(17, 41)]) ∧
    Bus.buildMasks (.zephyr 1 1) [17, 41] [(17, 41)] = .error .thrown :=
  ⟨Demo.zephyrCoding_right 1 4, by decide +kernel, by decide +kernel⟩

end MM
