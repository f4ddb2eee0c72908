import Verif.Bus.FragmentMem
import Verif.Props.BusDemo

/-! C115: the graph and the embedding that `draw_fragment_embedding` draws. -/

namespace MM

open Bus Lattice Spec

/-- C115, the graph: the nodes are the pieces of the qubits that are there, each listed once, in increasing order. Two of them are joined just
if they are next to each other in the Chimera lattice of the drawing and belong to one qubit or to two coupled ones. -/
theorem C115_graph {T : Topo} {nodes : List Nat} {edges : List (Nat × Nat)} (hG : WFGraph T nodes edges) :
    ∃ S, fragmentGraphSpec T nodes edges = .ok S ∧ S.nodes.Pairwise (· < ·) ∧ (∀ a, a ∈ S.nodes ↔ ∃ q ∈ nodes, Fragment T q a) ∧ (∀ a ∈ S.nodes, a < 2 * S.t * S.m * S.n) ∧
      ∀ a b, Coupler S.edges a b ↔ (ChimeraCoupled S.m S.n S.t a b ∨ ChimeraCoupled S.m S.n S.t b a) ∧
        ∃ p ∈ nodes, ∃ q ∈ nodes, Fragment T p a ∧ Fragment T q b ∧ (p = q ∨ Coupler edges p q) := by
  obtain ⟨ns, es, h1, h2, h3, h4⟩ := fragmentGraphSpec_ok hG
  refine ⟨_, h1, h2, fun a => (h3 a).trans ?_, fun a ha => ?_, fragmentEdge_iff hG h4⟩
  · constructor
    · rintro ⟨u, w, k, z, ⟨q, hq, hf⟩, e⟩; exact ⟨q, hq, (fragment_iff (hG.qubits q hq)).mpr ⟨u, w, k, z, hf, e⟩⟩
    · rintro ⟨q, hq, hf⟩
      obtain ⟨u, w, k, z, hf, e⟩ := (fragment_iff (hG.qubits q hq)).mp hf
      exact ⟨u, w, k, z, ⟨q, hq, hf⟩, e⟩
  · obtain ⟨u, w, k, z, hh, rfl⟩ := (h3 a).mp ha
    obtain ⟨hr, hk⟩ := hh.bounds hG.supported hG.qubits
    have := frag_lt hr hk
    have e : T.numCells * T.shore = 2 * T.shore * T.dimY * T.dimX := by unfold Topo.numCells; ring
    rw [e] at this
    exact this

/-- The qubits behind the drawing: pieces of different qubits differ, the pieces of one are joined to each other, and pieces of
two qubits are joined somewhere just if the qubits are coupled by a coupler that is not odd. -/
theorem C115_contract {T : Topo} {nodes : List Nat} {edges straight : List (Nat × Nat)} (hG : WFGraph T nodes edges) (hS : Straight T edges straight) {S : FragmentSpec}
    (h : fragmentGraphSpec T nodes edges = .ok S) :
    (∀ p ∈ nodes, ∀ q ∈ nodes, ∀ a, Fragment T p a → Fragment T q a → p = q) ∧
    (∀ q ∈ nodes, ∀ a b, Fragment T q a → Fragment T q b → Relation.ReflTransGen (fun a b => Fragment T q a ∧ Fragment T q b ∧ Coupler S.edges a b) a b) ∧
    ∀ p ∈ nodes, ∀ q ∈ nodes, p ≠ q → ((∃ a b, Fragment T p a ∧ Fragment T q b ∧ Coupler S.edges a b) ↔ Coupler straight p q) := by
  obtain ⟨S', h0, h1, h2, h3, h4⟩ := C115_graph hG
  rw [h] at h0
  cases h0
  obtain ⟨ns, es, k0, -, -, k1⟩ := fragmentGraphSpec_ok hG
  rw [h] at k0
  cases k0
  simp only at *
  refine ⟨fun p hp q hq a => fragment_unique hG.supported (hG.qubits p hp) (hG.qubits q hq), ?_, ?_⟩
  · intro q hq a b ha hb
    have Q := hG.qubits q hq
    obtain ⟨u, w, k, z, fa, rfl⟩ := (fragment_iff Q).mp ha
    obtain ⟨u', w', k', z', fb, rfl⟩ := (fragment_iff Q).mp hb
    obtain ⟨rfl, rfl, rfl⟩ := fa.eq_of fb
    have step : ∀ z, FragOf T q u w k z → FragOf T q u w k (z + 1) → Coupler es (T.frag u w (z + 1) k) (T.frag u w z k) := fun z f1 f2 =>
      .inl ((k1 _ _).mpr (.inl ⟨u, w, k, z, ⟨z, rfl, q, hq, q, hq, f1, f2, .inl rfl⟩, rfl, rfl⟩))
    have frag : ∀ z, FragOf T q u w k z → Fragment T q (T.frag u w z k) := fun z f => (fragment_iff Q).mpr ⟨u, w, k, z, f, rfl⟩
    have up : ∀ n z, FragOf T q u w k z → FragOf T q u w k (z + n) →
        Relation.ReflTransGen (fun a b => Fragment T q a ∧ Fragment T q b ∧ Coupler es a b) (T.frag u w z k) (T.frag u w (z + n) k) ∧
        Relation.ReflTransGen (fun a b => Fragment T q a ∧ Fragment T q b ∧ Coupler es a b) (T.frag u w (z + n) k) (T.frag u w z k) := by
      intro n
      induction n with
      | zero => intro z _ _; exact ⟨.refl, .refl⟩
      | succ n ih =>
        intro z f1 f2
        have f3 : FragOf T q u w k (z + n) := ⟨f1.hu, f1.hw, f1.hk, by have := f1.ge; omega, by have := f2.lt; omega⟩
        obtain ⟨i1, i2⟩ := ih z f1 f3
        have := step (z + n) f3 f2
        exact ⟨i1.tail ⟨frag _ f3, frag _ f2, Or.symm this⟩, .head ⟨frag _ f2, frag _ f3, this⟩ i2⟩
    rcases Nat.le_total z z' with hz | hz
    · obtain ⟨n, rfl⟩ := Nat.exists_eq_add_of_le hz
      exact (up n z fa fb).1
    · obtain ⟨n, rfl⟩ := Nat.exists_eq_add_of_le hz
      exact (up n z' fb fa).2
  · intro p hp q hq hne
    have Qp := hG.qubits p hp
    have Qq := hG.qubits q hq
    have hst : Coupler straight p q ↔ Coupler edges p q ∧ ¬OddCoupled T p q ∧ ¬OddCoupled T q p := by
      unfold Coupler
      rw [hS.iff, hS.iff]
      constructor
      · rintro (⟨a, b, c⟩ | ⟨a, b, c⟩)
        exacts [⟨.inl a, b, c⟩, ⟨.inr a, c, b⟩]
      · rintro ⟨a | a, b, c⟩
        exacts [.inl ⟨a, b, c⟩, .inr ⟨a, c, b⟩]
    rw [hst]
    constructor
    · rintro ⟨a, b, fa, fb, hc⟩
      obtain ⟨hcc, p', hp', q', hq', fa', fb', hpq⟩ := (h4 a b).mp hc
      obtain rfl := fragment_unique hG.supported Qp (hG.qubits p' hp') fa fa'
      obtain rfl := fragment_unique hG.supported Qq (hG.qubits q' hq') fb fb'
      have hl := hpq.resolve_left hne
      obtain ⟨u, w, k, z, ga, ea⟩ := (fragment_iff Qp).mp fa
      obtain ⟨u', w', k', z', gb, eb⟩ := (fragment_iff Qq).mp fb
      have par : ∀ {p q}, OddCoupled T p q → (T.first p).1 = (T.first q).1 ∧ (T.first p).2.2.1 ≠ (T.first q).2.2.1 := fun h => odd_parallel h
      have nopar : ¬(u = u' ∧ k ≠ k') := by
        rintro ⟨rfl, hk⟩
        have bd := frag_bounds hG.supported Qp ga
        have bd' := frag_bounds hG.supported Qq gb
        have sameK : ∀ a b, (a, b) ∈ es → ∀ z z' w w' k k', InR T u w z → k < T.shore → InR T u w' z' → k' < T.shore → a = T.frag u w z k → b = T.frag u w' z' k' → k = k' := by
          intro a b hab z z' w w' k k' r1 r2 r3 r4 e1 e2
          rcases (k1 a b).mp hab with ⟨v, w0, k0, z0, ⟨z1, e0, p1, hp1, q1, hq1, f1, f2, _⟩, rfl, rfl⟩ | ⟨x, k0, y, j, ⟨p1, q1, hl1, f1, f2⟩, rfl, rfl⟩
          · obtain rfl : z0 = z1 := by omega
            have c1 := frag_bounds hG.supported (hG.qubits q1 hq1) f2
            have c2 := frag_bounds hG.supported (hG.qubits p1 hp1) f1
            rw [← (frag_inj ⟨c1.1, c1.2.2⟩ c1.2.1 r1 r2 e1).2.2.2, ← (frag_inj ⟨c2.1, c2.2.2⟩ c2.2.1 r3 r4 e2).2.2.2]
          · have hn : p1 ∈ nodes ∧ q1 ∈ nodes := by
              rcases hl1 with hl1 | hl1
              · exact hG.ends _ hl1
              · exact (hG.ends _ hl1).symm
            have c1 := frag_bounds hG.supported (hG.qubits p1 hn.1) f1
            have c2 := frag_bounds hG.supported (hG.qubits q1 hn.2) f2
            have := (frag_inj ⟨c1.1, c1.2.2⟩ c1.2.1 r1 r2 e1).1
            have := (frag_inj (u := true) (w := y) (z := x) ⟨c2.1, c2.2.2⟩ c2.2.1 r3 r4 e2).1
            simp_all
        rcases hc with hc | hc
        · exact hk (sameK a b hc z z' w w' k k' ⟨bd.1, bd.2.2⟩ bd.2.1 ⟨bd'.1, bd'.2.2⟩ bd'.2.1 ea eb)
        · exact hk (sameK b a hc z' z w' w k' k ⟨bd'.1, bd'.2.2⟩ bd'.2.1 ⟨bd.1, bd.2.2⟩ bd.2.1 eb ea).symm
      refine ⟨hl, fun ho => nopar ?_, fun ho => nopar ?_⟩
      · obtain ⟨o1, o2⟩ := par ho
        rw [ga.hu, gb.hu] at o1
        rw [ga.hk, gb.hk] at o2
        exact ⟨o1, o2⟩
      · obtain ⟨o1, o2⟩ := par ho
        rw [ga.hu, gb.hu] at o1
        rw [ga.hk, gb.hk] at o2
        exact ⟨o1.symm, o2.symm⟩
    · rintro ⟨hc, o1, o2⟩
      have key : ∀ p q, p ∈ nodes → q ∈ nodes → Coupled T p q → ¬OddCoupled T p q → Coupler edges p q → ∃ a b, Fragment T p a ∧ Fragment T q b ∧ Coupler es a b := by
        intro p q hp hq hc o hl
        have Qp := hG.qubits p hp
        have Qq := hG.qubits q hq
        cases kind_of hc (.inl rfl) with
        | @cross x y k0 k1' g1 g2 _ =>
          exact ⟨_, _, (fragment_iff Qp).mpr ⟨_, _, _, _, g1, rfl⟩, (fragment_iff Qq).mpr ⟨_, _, _, _, g2, rfl⟩,
            .inl ((k1 _ _).mpr (.inr ⟨x, k0, y, k1', ⟨p, q, hl, g1, g2⟩, rfl, rfl⟩))⟩
        | @line u w k z g1 g2 _ =>
          have g2 : FragOf T q u w k (z + 1) := fragOf_of_first g2 (Nat.le_refl _) (by have := span_pos T; omega)
          exact ⟨_, _, (fragment_iff Qp).mpr ⟨_, _, _, _, g1, rfl⟩, (fragment_iff Qq).mpr ⟨_, _, _, _, g2, rfl⟩,
            .inr ((k1 _ _).mpr (.inl ⟨u, w, k, z, ⟨z, rfl, p, hp, q, hq, g1, g2, .inr hl⟩, rfl, rfl⟩))⟩
        | odd a b c _ => exact absurd (odd_of_parallel hc a c) o
      have hco : Coupled T p q ∨ Coupled T q p := by
        rcases hc with hc | hc
        · exact hG.coupled _ hc
        · exact (hG.coupled _ hc).symm
      rcases hco with hco | hco
      · exact key p q hp hq hco o1 hc
      · obtain ⟨a, b, f1, f2, f3⟩ := key q p hq hp hco o2 (Or.symm hc)
        exact ⟨b, a, f2, f1, Or.symm f3⟩

section
variable {T : Topo} {nodes : List Nat} {edges straight : List (Nat × Nat)} {S : FragmentSpec}

/-- C115, one chain, except for what `C115_odd` refutes: the chain drawn for a set of qubits consists of their pieces, and is a chain of the fragment
graph just if the qubits are a chain of the graph without its odd couplers. -/
theorem C115_chain_partial (hG : WFGraph T nodes edges) (hS : Straight T edges straight) (h : fragmentGraphSpec T nodes edges = .ok S) {c : List Nat} (hc : ∀ q ∈ c, IsQubit T q) :
    (∀ a, a ∈ T.chainFragments c ↔ ∃ q ∈ c, Fragment T q a) ∧ (IsChain S.nodes S.edges (T.chainFragments c) ↔ IsChain nodes straight c) := by
  obtain ⟨S', h0, -, h2, -, h4⟩ := C115_graph hG
  rw [h] at h0
  cases h0
  obtain ⟨-, hin, hout⟩ := C115_contract hG hS h
  refine ⟨fun a => mem_chainFragments hc, ?_, ?_⟩
  · rintro ⟨h5, h6, h7⟩
    have hn : ∀ q ∈ c, q ∈ nodes := by
      intro q hq
      obtain ⟨a, ha⟩ := fragment_exists (hc q hq)
      obtain ⟨q', hq', ha'⟩ := (h2 a).mp (h6 a ((mem_chainFragments hc).mpr ⟨q, hq, ha⟩))
      rw [fragment_unique hG.supported (hc q hq) (hG.qubits q' hq') ha ha']
      exact hq'
    refine ⟨by rintro rfl; exact h5 rfl, hn, fun p hp q hq => ?_⟩
    obtain ⟨a, ha⟩ := fragment_exists (hc p hp)
    obtain ⟨b, hb⟩ := fragment_exists (hc q hq)
    have hab := h7 a ((mem_chainFragments hc).mpr ⟨p, hp, ha⟩) b ((mem_chainFragments hc).mpr ⟨q, hq, hb⟩)
    clear h7
    induction hab generalizing q with
    | refl =>
      rw [fragment_unique hG.supported (hc p hp) (hc q hq) ha hb]
    | @tail r b _ hs ih =>
      obtain ⟨m1, _, m3⟩ := hs
      obtain ⟨q', hq', hr⟩ := (mem_chainFragments hc).mp m1
      have hpre := ih q' hq' hr
      by_cases e : q' = q
      · rw [← e]; exact hpre
      · exact hpre.tail ⟨hq', hq, (hout q' (hn _ hq') q (hn _ hq) e).mp ⟨r, b, hr, hb, m3⟩⟩
  · rintro ⟨h5, h6, h7⟩
    refine ⟨?_, fun a ha => ?_, fun a ma b mb => ?_⟩
    · obtain ⟨q, hq⟩ := List.exists_mem_of_ne_nil c h5
      obtain ⟨a, ha⟩ := fragment_exists (hc q hq)
      exact List.ne_nil_of_mem ((mem_chainFragments hc).mpr ⟨q, hq, ha⟩)
    · obtain ⟨q, hq, ha⟩ := (mem_chainFragments hc).mp ha
      exact (h2 a).mpr ⟨q, h6 q hq, ha⟩
    · obtain ⟨p, hp, ha⟩ := (mem_chainFragments hc).mp ma
      obtain ⟨q, hq, hb⟩ := (mem_chainFragments hc).mp mb
      have inside : ∀ q ∈ c, ∀ a b, Fragment T q a → Fragment T q b →
          Relation.ReflTransGen (fun a b => a ∈ T.chainFragments c ∧ b ∈ T.chainFragments c ∧ Coupler S.edges a b) a b := by
        intro q hq a b ha hb
        have := hin q (h6 q hq) a b ha hb
        clear ha hb
        induction this with
        | refl => exact .refl
        | tail _ hs ih => exact ih.tail ⟨(mem_chainFragments hc).mpr ⟨q, hq, hs.1⟩, (mem_chainFragments hc).mpr ⟨q, hq, hs.2.1⟩, hs.2.2⟩
      have hpq := h7 p hp q hq
      clear h7 mb
      induction hpq generalizing b with
      | refl => exact inside p hp a b ha hb
      | @tail r q _ hs ih =>
        obtain ⟨m1, m2, m3⟩ := hs
        by_cases e : r = q
        · exact ih b m1 (by rw [e]; exact hb)
        · obtain ⟨x, y, fx, fy, hxy⟩ := (hout r (h6 _ m1) q (h6 _ m2) e).mpr m3
          exact ((ih x m1 fx).tail ⟨(mem_chainFragments hc).mpr ⟨r, m1, fx⟩, (mem_chainFragments hc).mpr ⟨q, m2, fy⟩, hxy⟩).trans (inside q m2 y b fy hb)

/-- C115, two chains: what is drawn overlaps just if the chains do; if not, it is joined just if the chains are, not counting odd couplers. -/
theorem C115_pair_partial (hG : WFGraph T nodes edges) (hS : Straight T edges straight) (h : fragmentGraphSpec T nodes edges = .ok S) {c d : List Nat}
    (hc : ∀ q ∈ c, q ∈ nodes) (hd : ∀ q ∈ d, q ∈ nodes) :
    ((∀ a ∈ T.chainFragments c, a ∉ T.chainFragments d) ↔ ∀ q ∈ c, q ∉ d) ∧
    ((∀ q ∈ c, q ∉ d) → (Adjacent S.edges (T.chainFragments c) (T.chainFragments d) ↔ Adjacent straight c d)) := by
  have Qc := fun q hq => hG.qubits q (hc q hq)
  have Qd := fun q hq => hG.qubits q (hd q hq)
  obtain ⟨hun, -, hout⟩ := C115_contract hG hS h
  refine ⟨⟨fun hdis q hqc hqd => ?_, fun hdis a ha hb => ?_⟩, fun hdis => ⟨?_, ?_⟩⟩
  · obtain ⟨a, ha⟩ := fragment_exists (Qc q hqc)
    exact hdis a ((mem_chainFragments Qc).mpr ⟨q, hqc, ha⟩) ((mem_chainFragments Qd).mpr ⟨q, hqd, ha⟩)
  · obtain ⟨p, hp, fp⟩ := (mem_chainFragments Qc).mp ha
    obtain ⟨q, hq, fq⟩ := (mem_chainFragments Qd).mp hb
    exact hdis p hp (by rw [hun p (hc p hp) q (hd q hq) a fp fq]; exact hq)
  · rintro ⟨a, ha, b, hb, hab⟩
    obtain ⟨p, hp, fp⟩ := (mem_chainFragments Qc).mp ha
    obtain ⟨q, hq, fq⟩ := (mem_chainFragments Qd).mp hb
    exact ⟨p, hp, q, hq, (hout p (hc p hp) q (hd q hq) (by rintro rfl; exact hdis p hp hq)).mp ⟨a, b, fp, fq, hab⟩⟩
  · rintro ⟨p, hp, q, hq, hpq⟩
    obtain ⟨a, b, fp, fq, hab⟩ := (hout p (hc p hp) q (hd q hq) (by rintro rfl; exact hdis p hp hq)).mpr hpq
    exact ⟨a, (mem_chainFragments Qc).mpr ⟨p, hp, fp⟩, b, (mem_chainFragments Qd).mpr ⟨q, hq, fq⟩, hab⟩

theorem pairwise_congr_mem {α : Type} {R R' : α → α → Prop} {l : List α} (h : ∀ a ∈ l, ∀ b ∈ l, (R a b ↔ R' a b)) : l.Pairwise R ↔ l.Pairwise R' :=
  ⟨fun hp => hp.imp_of_mem fun ha hb => (h _ ha _ hb).mp, fun hp => hp.imp_of_mem fun ha hb => (h _ ha _ hb).mpr⟩

/-- C115, a clique embedding: what is drawn for it, under the same names, embeds the complete graph in the fragment graph just if it embeds it
in the given graph without odd couplers. -/
theorem C115_partial (hG : WFGraph T nodes edges) (hS : Straight T edges straight) (h : fragmentGraphSpec T nodes edges = .ok S) {α : Type} (emb : List (α × List Nat))
    (hq : ∀ p ∈ emb, ∀ q ∈ p.2, q ∈ nodes) :
    (fragmentEmbedding T emb).map Prod.fst = emb.map Prod.fst ∧
    (CliqueEmbedding S.nodes S.edges ((fragmentEmbedding T emb).map Prod.snd) ↔ CliqueEmbedding nodes straight (emb.map Prod.snd)) := by
  have hq' : ∀ c ∈ emb.map Prod.snd, ∀ q ∈ c, q ∈ nodes := by
    intro c hc
    obtain ⟨p, hp, rfl⟩ := List.mem_map.mp hc
    exact hq p hp
  have e : (fragmentEmbedding T emb).map Prod.snd = (emb.map Prod.snd).map T.chainFragments := by simp [fragmentEmbedding]
  refine ⟨by simp [fragmentEmbedding], ?_⟩
  rw [e]
  generalize emb.map Prod.snd = L at hq'
  have chain := fun c hc => (C115_chain_partial hG hS h (c := c) fun q hq => hG.qubits q (hq' c hc q hq)).2
  have pair := fun c hc d hd => C115_pair_partial hG hS h (hq' c hc) (hq' d hd)
  have dis : ((L.map T.chainFragments).Pairwise fun c d => ∀ q ∈ c, q ∉ d) ↔ L.Pairwise fun c d => ∀ q ∈ c, q ∉ d := by
    rw [List.pairwise_map]
    exact pairwise_congr_mem fun c hc d hd => (pair c hc d hd).1
  have adj : (L.Pairwise fun c d => ∀ q ∈ c, q ∉ d) → ((L.map T.chainFragments).Pairwise (Adjacent S.edges) ↔ L.Pairwise (Adjacent straight)) := by
    intro hd
    rw [List.pairwise_map]
    exact ⟨fun ha => (hd.and ha).imp_of_mem fun hc hd h => ((pair _ hc _ hd).2 h.1).mp h.2, fun ha => (hd.and ha).imp_of_mem fun hc hd h => ((pair _ hc _ hd).2 h.1).mpr h.2⟩
  constructor
  · rintro ⟨h1, h2, h3⟩
    have h2 := dis.mp h2
    exact ⟨fun c hc => (chain c hc).mp (h1 _ (List.mem_map_of_mem hc)), h2, (adj h2).mp h3⟩
  · rintro ⟨h1, h2, h3⟩
    refine ⟨fun c hc => ?_, dis.mpr h2, (adj h2).mpr h3⟩
    obtain ⟨c', hc', rfl⟩ := List.mem_map.mp hc
    exact (chain c' hc').mpr (h1 c' hc')

/-- In Chimera graphs there are no odd couplers, and C115 holds in full. -/
theorem C115_chimera {m n t : Nat} (hG : WFGraph (.chimera m n t) nodes edges) (h : fragmentGraphSpec (.chimera m n t) nodes edges = .ok S) {α : Type} (emb : List (α × List Nat))
    (hq : ∀ p ∈ emb, ∀ q ∈ p.2, q ∈ nodes) :
    CliqueEmbedding S.nodes S.edges ((fragmentEmbedding (.chimera m n t) emb).map Prod.snd) ↔ CliqueEmbedding nodes edges (emb.map Prod.snd) :=
  (C115_partial hG ⟨fun p q => ⟨fun h => ⟨h, id, id⟩, fun h => h.1⟩⟩ h emb hq).2
end

/-- The couplers of the example without its odd one. -/
def pegStraight : List (Nat × Nat) := pegEdges.filter fun e => e ≠ (pegasusNum 3 0 1 0 0, pegasusNum 3 0 1 1 0)

theorem pegStraight_ok : Straight (.pegasus 3 pegasusOff) pegEdges pegStraight := by
  refine ⟨fun p q => ?_⟩
  rw [pegStraight, List.mem_filter]
  refine and_congr_right fun h => ?_
  have hdec : ∀ e ∈ pegEdges, e ≠ (pegasusNum 3 0 1 0 0, pegasusNum 3 0 1 1 0) →
      ¬(((Topo.pegasus 3 pegasusOff).first e.1).1 = ((Topo.pegasus 3 pegasusOff).first e.2).1 ∧ ((Topo.pegasus 3 pegasusOff).first e.1).2.2.1 ≠ ((Topo.pegasus 3 pegasusOff).first e.2).2.2.1) := by
    decide +kernel
  constructor
  · intro hne
    have := hdec _ h (of_decide_eq_true hne)
    exact ⟨fun ho => this (odd_parallel ho), fun ho => this ⟨(odd_parallel ho).1.symm, (odd_parallel ho).2.symm⟩⟩
  · rintro ⟨ho, -⟩
    rw [decide_eq_true_eq]
    rintro e
    cases e
    exact ho ⟨0, 1, 0, 0, by decide, by decide, by decide, by decide, rfl, rfl⟩

/-- Odd couplers are not drawn: of a Pegasus graph, two qubits joined by one are a chain, but what is drawn for them falls apart; and they embed the
complete graph with two nodes, but what is drawn does not. -/
theorem C115_odd : WFGraph (.pegasus 3 pegasusOff) pegNodes pegEdges ∧
    IsChain pegNodes pegEdges [pegasusNum 3 0 1 0 0, pegasusNum 3 0 1 1 0] ∧ CliqueEmbedding pegNodes pegEdges [[pegasusNum 3 0 1 0 0], [pegasusNum 3 0 1 1 0]] ∧
    ∃ S, fragmentGraphSpec (.pegasus 3 pegasusOff) pegNodes pegEdges = .ok S ∧
      ¬IsChain S.nodes S.edges ((Topo.pegasus 3 pegasusOff).chainFragments [pegasusNum 3 0 1 0 0, pegasusNum 3 0 1 1 0]) ∧
      ¬CliqueEmbedding S.nodes S.edges ((fragmentEmbedding (.pegasus 3 pegasusOff) [("a", [pegasusNum 3 0 1 0 0]), ("b", [pegasusNum 3 0 1 1 0])]).map Prod.snd) := by
  obtain ⟨S, hS, -⟩ := C115_graph peg_wf
  have hne : pegasusNum 3 0 1 0 0 ≠ pegasusNum 3 0 1 1 0 := by decide
  have hno : ¬Coupler pegStraight (pegasusNum 3 0 1 0 0) (pegasusNum 3 0 1 1 0) := by unfold Coupler; decide +kernel
  have hcoup : Coupler pegEdges (pegasusNum 3 0 1 0 0) (pegasusNum 3 0 1 1 0) := by unfold Coupler; decide +kernel
  refine ⟨peg_wf, ⟨by simp, by decide, ?_⟩, ⟨?_, ?_, ?_⟩, S, hS, ?_, ?_⟩
  · intro p hp q hq
    simp only [List.mem_cons, List.not_mem_nil, or_false] at hp hq
    rcases hp with rfl | rfl <;> rcases hq with rfl | rfl
    · exact .refl
    · exact .single ⟨by simp, by simp, hcoup⟩
    · exact .single ⟨by simp, by simp, Or.symm hcoup⟩
    · exact .refl
  · intro c hc
    simp only [List.mem_cons, List.not_mem_nil, or_false] at hc
    rcases hc with rfl | rfl
    · exact ⟨by simp, by decide, by intro p hp q hq; rw [List.mem_singleton] at hp hq; subst hp hq; exact .refl⟩
    · exact ⟨by simp, by decide, by intro p hp q hq; rw [List.mem_singleton] at hp hq; subst hp hq; exact .refl⟩
  · decide
  · simpa [Adjacent] using hcoup
  · rw [(C115_chain_partial peg_wf pegStraight_ok hS (by intro q hq; exact peg_wf.qubits q (by revert q; decide))).2]
    rintro ⟨-, -, h⟩
    rcases Relation.ReflTransGen.cases_head (h (pegasusNum 3 0 1 0 0) (by simp) (pegasusNum 3 0 1 1 0) (by simp)) with h | ⟨c, ⟨-, h1, h2⟩, -⟩
    · exact hne h
    · simp only [List.mem_cons, List.not_mem_nil, or_false] at h1
      rcases h1 with rfl | rfl
      · revert h2; unfold Coupler; decide +kernel
      · exact hno h2
  · rw [(C115_partial peg_wf pegStraight_ok hS _ (by decide)).2]
    rintro ⟨-, -, h⟩
    simp only [List.map_cons, List.map_nil, List.pairwise_cons, List.mem_singleton, forall_eq] at h
    obtain ⟨p, hp, q, hq, hc⟩ := h.1
    rw [List.mem_singleton] at hp hq
    subst hp hq
    exact hno hc

/-- The first and second qubit of the Pegasus example follow one another, and are drawn as one line of twelve; with the sixth, which crosses the second, they are a chain, and drawn connected. -/
example : Straight (.pegasus 3 pegasusOff) pegEdges pegStraight ∧ ∃ S, fragmentGraphSpec (.pegasus 3 pegasusOff) pegNodes pegEdges = .ok S ∧
    ((Topo.pegasus 3 pegasusOff).chainFragments [pegasusNum 3 0 1 0 0, pegasusNum 3 0 1 0 1]) = [456, 384, 312, 240, 168, 96, 888, 816, 744, 672, 600, 528] ∧
    IsChain S.nodes S.edges ((Topo.pegasus 3 pegasusOff).chainFragments [pegasusNum 3 0 1 0 0, pegasusNum 3 0 1 0 1, pegasusNum 3 1 1 2 0]) := by
  obtain ⟨S, hS, -⟩ := C115_graph peg_wf
  refine ⟨pegStraight_ok, S, hS, by decide +kernel, ?_⟩
  rw [(C115_chain_partial peg_wf pegStraight_ok hS (by intro q hq; exact peg_wf.qubits q (by revert q; decide))).2]
  have c1 : Coupler pegStraight (pegasusNum 3 0 1 0 0) (pegasusNum 3 0 1 0 1) := by unfold Coupler; decide +kernel
  have c2 : Coupler pegStraight (pegasusNum 3 0 1 0 1) (pegasusNum 3 1 1 2 0) := by unfold Coupler; decide +kernel
  have m1 : pegasusNum 3 0 1 0 0 ∈ [pegasusNum 3 0 1 0 0, pegasusNum 3 0 1 0 1, pegasusNum 3 1 1 2 0] := by decide
  have m2 : pegasusNum 3 0 1 0 1 ∈ [pegasusNum 3 0 1 0 0, pegasusNum 3 0 1 0 1, pegasusNum 3 1 1 2 0] := by decide
  have m3 : pegasusNum 3 1 1 2 0 ∈ [pegasusNum 3 0 1 0 0, pegasusNum 3 0 1 0 1, pegasusNum 3 1 1 2 0] := by decide
  refine ⟨by simp, by decide, fun p hp q hq => Relation.ReflTransGen.trans (b := pegasusNum 3 0 1 0 1) ?_ ?_⟩
  · simp only [List.mem_cons, List.not_mem_nil, or_false] at hp
    rcases hp with rfl | rfl | rfl
    · exact .single ⟨m1, m2, c1⟩
    · exact .refl
    · exact .single ⟨m3, m2, Or.symm c2⟩
  · simp only [List.mem_cons, List.not_mem_nil, or_false] at hq
    rcases hq with rfl | rfl | rfl
    · exact .single ⟨m2, m1, Or.symm c1⟩
    · exact .refl
    · exact .single ⟨m2, m3, c2⟩

/-- The Chimera example is drawn as it is. -/
example : ∃ S, fragmentGraphSpec (.chimera 2 2 2) gridNodes gridEdges = .ok S ∧ S.nodes = gridNodes ∧ S.edges =
    [(0, 3), (1, 2), (1, 3), (4, 6), (4, 7), (5, 6), (5, 7), (6, 2), (7, 3), (8, 0), (8, 10), (8, 11), (9, 1), (9, 10), (9, 11), (12, 4), (12, 14), (12, 15), (13, 5), (13, 14), (13, 15), (14, 10), (15, 11)] := by
  obtain ⟨S, hS, -⟩ := C115_graph grid_wf
  have h : (fragmentGraphSpec (.chimera 2 2 2) gridNodes gridEdges).toOption = some ⟨2, 2, 2, gridNodes,
    [(0, 3), (1, 2), (1, 3), (4, 6), (4, 7), (5, 6), (5, 7), (6, 2), (7, 3), (8, 0), (8, 10), (8, 11), (9, 1), (9, 10), (9, 11), (12, 4), (12, 14), (12, 15), (13, 5), (13, 14), (13, 15), (14, 10), (15, 11)]⟩ := by
    decide +kernel
  rw [hS] at h
  cases h
  exact ⟨_, hS, rfl, rfl⟩

/-- The qubits 1 and 3 of the Chimera example are coupled, and so is what is drawn for them; 0 and 2 are not. -/
example : ∃ S, fragmentGraphSpec (.chimera 2 2 2) gridNodes gridEdges = .ok S ∧ CliqueEmbedding S.nodes S.edges ((fragmentEmbedding (.chimera 2 2 2) [("a", [1]), ("b", [3])]).map Prod.snd) ∧
    ¬CliqueEmbedding S.nodes S.edges ((fragmentEmbedding (.chimera 2 2 2) [("a", [0]), ("b", [2])]).map Prod.snd) := by
  obtain ⟨S, hS, -⟩ := C115_graph grid_wf
  refine ⟨S, hS, ?_, ?_⟩
  · rw [C115_chimera grid_wf hS _ (by decide)]
    refine ⟨?_, by decide, ?_⟩
    · intro c hc
      simp only [List.map_cons, List.map_nil, List.mem_cons, List.not_mem_nil, or_false] at hc
      rcases hc with rfl | rfl
      · exact ⟨by simp, by decide, by intro p hp q hq; rw [List.mem_singleton] at hp hq; subst hp hq; exact .refl⟩
      · exact ⟨by simp, by decide, by intro p hp q hq; rw [List.mem_singleton] at hp hq; subst hp hq; exact .refl⟩
    · have : Coupler gridEdges 1 3 := by unfold Coupler; decide +kernel
      simpa [Adjacent] using this
  · rw [C115_chimera grid_wf hS _ (by decide)]
    rintro ⟨-, -, h⟩
    have : ¬Coupler gridEdges 0 2 := by unfold Coupler; decide +kernel
    apply this
    simpa [Adjacent] using h

end MM
