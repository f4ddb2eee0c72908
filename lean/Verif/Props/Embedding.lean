import Verif.Props.Demo

/-! C01, C04, C05, C11: what a call of `find_embedding` gives its caller. -/

namespace MM

open Scratch (Cfg)

variable {sort : List (List Nat) → List (List Nat)} {I : Input}

/-! ### C01 -/

/-- **C02, proved for compatible restrictions.** A reported success is a minor embedding
also with `restrict_chains`, provided that whatever one neighbour of a free node may use,
the node itself or each of its other neighbours may use too. Without that proviso the claim
is false, see `C02_success_not_valid`. -/
theorem C02_success_is_minor_embedding_partial (hs : SortOK sort) (hI : I.OK) (hr : I.Compatible)
    (C : Cfg) (A : Params) (ro : Bool) (t : Tape) (cs : List (List Nat))
    (h : findEmbedding sort C A ro I t = .ok (true, cs)) : Spec.EmbedsUpTo I.FixV I.src I.tgt cs := by
  obtain ⟨p, l0, E, hf⟩ := findEmbedding_final hs hI hr h
  obtain ⟨a, b, c⟩ := hf.yes rfl
  exact hf.rep.success hI a b c (hf.given (Or.inl rfl)).1 (hf.given (Or.inl rfl)).2

/-- **C01.** A reported success is a minor embedding: one chain for each source node, not
empty, connected unless fixed, chains of different nodes disjoint, and every source edge
with an end that is not fixed realised by a target edge. -/
theorem C01_success_is_minor_embedding (hs : SortOK sort) (hI : I.OK) (hr : I.restrC = [])
    (C : Cfg) (A : Params) (ro : Bool) (t : Tape) (cs : List (List Nat))
    (h : findEmbedding sort C A ro I t = .ok (true, cs)) : Spec.EmbedsUpTo I.FixV I.src I.tgt cs :=
  C02_success_is_minor_embedding_partial hs hI (Input.compatible_of_nil hr) C A ro t cs h

example : Spec.EmbedsUpTo Demo.star.FixV Demo.star.src Demo.star.tgt [[1, 2], [5], [6], [3]] :=
  C01_success_is_minor_embedding Demo.sortOK Demo.star_ok rfl _ _ _ _ _ Demo.star_run

/-! ### C04 -/

/-- **C04.** If a call returns chains at all (it succeeded, or overlapping chains were asked
for), then either every chain is empty, which is a failure, or the chain of each fixed node
is exactly the given set of qubits and no chain of another node that is not fixed touches
it. -/
theorem C04_fixed_chains_exact (hs : SortOK sort) (hI : I.OK) (hr : I.Compatible)
    (C : Cfg) (A : Params) (ro ok : Bool) (t : Tape) (cs : List (List Nat))
    (h : findEmbedding sort C A ro I t = .ok (ok, cs)) (hg : ok = true ∨ ro = true) :
    (ok = false ∧ ∀ c ∈ cs, c = []) ∨
    ∀ kv ∈ I.fixedC, ∃ c, cs[kv.1.toNat]? = some c ∧ (∀ q : Nat, q ∈ c ↔ (q : Int) ∈ kv.2) ∧
      ∀ (u : Nat) (d : List Nat), ¬ I.FixV u → cs[u]? = some d → ∀ q ∈ d, (q : Int) ∉ kv.2 := by
  obtain ⟨p, l0, E, hf⟩ := findEmbedding_final hs hI hr h
  obtain ⟨hlen, hcs⟩ := hf.given hg
  dsimp only at hlen hcs
  have main : EInv p.P (fun _ q => q < p.P.nq) E → ∀ kv ∈ I.fixedC, ∃ c, cs[kv.1.toNat]? = some c ∧
      (∀ q : Nat, q ∈ c ↔ (q : Int) ∈ kv.2) ∧
      ∀ (u : Nat) (d : List Nat), ¬ I.FixV u → cs[u]? = some d → ∀ q ∈ d, (q : Int) ∉ kv.2 := by
    intro hE kv hkv
    have hrg := hI.frange kv hkv
    have hlt : kv.1.toNat < cs.length := by omega
    refine ⟨cs[kv.1.toNat], List.getElem?_eq_getElem hlt, ?_, ?_⟩
    · exact hf.fixed_chain hI hE hkv (hcs _ _ (List.getElem?_eq_getElem hlt))
    · intro u d hu hd q hq hqk
      have hul : u < I.src.n := by
        rw [← hlen]; by_contra hc; rw [List.getElem?_eq_none (by omega)] at hd; simp at hd
      obtain ⟨j, hj, hh⟩ := ((hcs u d hd).2 q).1 hq
      have hnv : p.screw u < p.P.nv := by
        by_contra hc; exact hu ((hf.rep.fixed u hul).1 (by omega))
      have h1 := hE.dom _ j hnv hh
      have h2 := (hf.rep.resv j q hj).2 ⟨kv, hkv, hqk⟩
      omega
  cases ok with
  | true => exact Or.inr (main (hf.yes rfl).1)
  | false =>
    rcases hf.no rfl with rfl | ⟨hE, _⟩
    · left
      refine ⟨rfl, ?_⟩
      intro c hc
      obtain ⟨u, hu⟩ := List.getElem?_of_mem hc
      exact handed_empty (hcs u c hu)
    · exact Or.inr (main hE)

example : ∀ kv ∈ Demo.star.fixedC, ∃ c, [[1, 2], [5], [6], [3]][kv.1.toNat]? = some c ∧
    (∀ q : Nat, q ∈ c ↔ (q : Int) ∈ kv.2) ∧
    ∀ (u : Nat) (d : List Nat), ¬ Demo.star.FixV u → [[1, 2], [5], [6], [3]][u]? = some d →
      ∀ q ∈ d, (q : Int) ∉ kv.2 :=
  (C04_fixed_chains_exact Demo.sortOK Demo.star_ok (Input.compatible_of_nil rfl) _ _ _ _ _ _ Demo.star_run (Or.inl rfl)).resolve_left (by simp)

/-- **C01**, when the fixed chains are themselves connected and realise the edges between
fixed nodes: a reported success is a minor embedding. -/
theorem C01_success_is_minor_embedding_of_fixed (hs : SortOK sort) (hI : I.OK) (hr : I.restrC = [])
    (hconn : ∀ kv ∈ I.fixedC, Spec.ConnectedIn I.tgt (kv.2.map Int.toNat))
    (hjoin : ∀ kv ∈ I.fixedC, ∀ kv' ∈ I.fixedC, kv.1 ≠ kv'.1 → I.src.Edge kv.1.toNat kv'.1.toNat →
      Spec.Joined I.tgt (kv.2.map Int.toNat) (kv'.2.map Int.toNat))
    (C : Cfg) (A : Params) (ro : Bool) (t : Tape) (cs : List (List Nat))
    (h : findEmbedding sort C A ro I t = .ok (true, cs)) : Spec.Embeds I.src I.tgt cs := by
  have h1 := C01_success_is_minor_embedding hs hI hr C A ro t cs h
  have h2 := (C04_fixed_chains_exact hs hI (Input.compatible_of_nil hr) C A ro true t cs h (Or.inl rfl)).resolve_left (by simp)
  have same : ∀ (u : Nat) (c : List Nat), I.FixV u → cs[u]? = some c →
      ∃ kv ∈ I.fixedC, kv.1 = (u : Int) ∧ ∀ q, q ∈ c ↔ q ∈ kv.2.map Int.toNat := by
    rintro u c ⟨kv, hkv, he⟩ hc
    obtain ⟨c', hc', hm, _⟩ := h2 kv hkv
    have : kv.1.toNat = u := by omega
    rw [this, hc] at hc'
    simp only [Option.some.injEq] at hc'
    subst hc'
    refine ⟨kv, hkv, he, ?_⟩
    intro q
    rw [hm q, List.mem_map]
    constructor
    · intro hq; exact ⟨_, hq, by simp⟩
    · rintro ⟨x, hx, rfl⟩
      rw [Int.toNat_of_nonneg ((hI.frange kv hkv).2 x hx).1]; exact hx
  refine ⟨h1.size, h1.nonempty, h1.nodup, h1.nodes, ?_, h1.disjoint, ?_⟩
  · intro u c _ hc
    by_cases hf : I.FixV u
    · obtain ⟨kv, hkv, _, hm⟩ := same u c hf hc
      intro a ha b hb
      have := hconn kv hkv a ((hm a).1 ha) b ((hm b).1 hb)
      clear ha hb
      induction this with
      | refl => exact .refl
      | tail _ hbc ih => exact ih.tail ⟨(hm _).2 hbc.1, hbc.2⟩
    · exact h1.connected u c hf hc
  · intro u v c d _ he hne hc hd
    by_cases hf : I.FixV u ∧ I.FixV v
    · obtain ⟨kv, hkv, e1, hm⟩ := same u c hf.1 hc
      obtain ⟨kv', hkv', e2, hm'⟩ := same v d hf.2 hd
      obtain ⟨a, ha, b, hb, hab⟩ := hjoin kv hkv kv' hkv' (by omega) (by
        rw [e1, e2]; simpa using he)
      exact ⟨a, (hm a).2 ha, b, (hm' b).2 hb, hab⟩
    · exact h1.edges u v c d hf he hne hc hd

example : Spec.Embeds Demo.path3.src Demo.path3.tgt [[2], [3], [4]] :=
  C01_success_is_minor_embedding_of_fixed Demo.sortOK Demo.path3_ok rfl (by simp [Demo.path3])
    (by simp [Demo.path3]) _ _ _ _ _ Demo.path3_run

/-! ### C11 -/

/-- **C11.** The flag tells success. Without `return_overlap` the chains are absent exactly
on failure; with it there is an entry for every source node. On success the chains are
disjoint. On failure with `return_overlap` either all chains are empty or every node has a
chain and some two chains overlap. -/
theorem C11_result_contract (hs : SortOK sort) (hI : I.OK) (hr : I.Compatible)
    (C : Cfg) (A : Params) (ro ok : Bool) (t : Tape) (cs : List (List Nat))
    (h : findEmbedding sort C A ro I t = .ok (ok, cs)) :
    (ro = false → (cs = [] ↔ ok = false)) ∧
    (ok = true ∨ ro = true → cs.length = I.src.n) ∧
    (ok = true → (∀ c ∈ cs, c ≠ []) ∧
      ∀ (u v : Nat) (c d : List Nat), u ≠ v → cs[u]? = some c → cs[v]? = some d → ∀ q ∈ c, q ∉ d) ∧
    (ok = false → ro = true → (∀ c ∈ cs, c = []) ∨ (∀ c ∈ cs, c ≠ []) ∧
      ∃ (u v : Nat) (c d : List Nat) (q : Nat), u ≠ v ∧ cs[u]? = some c ∧ cs[v]? = some d ∧ q ∈ c ∧ q ∈ d) := by
  obtain ⟨p, l0, E, hf⟩ := findEmbedding_final hs hI hr h
  have hyes : ok = true → Spec.EmbedsUpTo I.FixV I.src I.tgt cs := by
    intro hok; subst hok; exact C02_success_is_minor_embedding_partial hs hI hr C A ro t cs h
  refine ⟨?_, fun hg => (hf.given hg).1, fun hok => ⟨(hyes hok).nonempty, (hyes hok).disjoint⟩, ?_⟩
  · intro hro
    constructor
    · intro hcs
      cases ok with
      | false => rfl
      | true =>
        have h1 := (hyes rfl).size
        rw [hcs] at h1
        have := hI.src_pos
        simp at h1; omega
    · intro hok; exact hf.none hok hro
  · intro hok hro
    obtain ⟨hlen, hcs⟩ := hf.given (Or.inr hro)
    dsimp only at hlen hcs
    rcases hf.no hok with rfl | ⟨hE, hF, q, hq, hfill⟩
    · left
      intro c hc
      obtain ⟨u, hu⟩ := List.getElem?_of_mem hc
      exact handed_empty (hcs u c hu)
    · right
      have hchain : ∀ u (hu : u < cs.length), Handed p l0 E u cs[u] :=
        fun u hu => hcs u _ (List.getElem?_eq_getElem hu)
      refine ⟨?_, ?_⟩
      · intro c hc
        obtain ⟨u, hu⟩ := List.getElem?_of_mem hc
        have hul : u < I.src.n := by
          rw [← hlen]; by_contra hc; rw [List.getElem?_eq_none (by omega)] at hu; simp at hu
        have hN : p.screw u < p.P.N := by rw [hf.rep.hN]; exact hf.rep.slt u hul
        have hne : E.NE (p.screw u) := by
          by_cases hv : p.screw u < p.P.nv
          · exact hE.L_ne hN (hF _ hv).1
          · exact hE.fixed_NE hf.rep.wf (by omega) hN
        obtain ⟨j, hj⟩ := hne
        have hjQ : j < l0.length := by rw [← hf.rep.hQ]; exact (hE.cinv _ hN).has_lt hj
        obtain ⟨x, hx⟩ := getElem?_lt hjQ
        have := ((hcs u c hu).2 x).2 ⟨j, hx, hj⟩
        intro hn; rw [hn] at this; simp at this
      · unfold Emb.fill at hfill
        obtain ⟨i, j, hi, hj, hij, h1, h2⟩ := two_of_cnt hfill
        rw [hf.rep.hN] at hi hj
        have hqQ : q < l0.length := by rw [← hf.rep.hQ]; unfold Prob.Q; omega
        obtain ⟨x, hx⟩ := getElem?_lt hqQ
        obtain ⟨a1, a2⟩ := hf.rep.us i hi
        obtain ⟨b1, b2⟩ := hf.rep.us j hj
        refine ⟨p.unscrew i, p.unscrew j, cs[p.unscrew i]'(by omega), cs[p.unscrew j]'(by omega), x, ?_,
          List.getElem?_eq_getElem (by omega), List.getElem?_eq_getElem (by omega), ?_, ?_⟩
        · intro hc; rw [hc] at a2; omega
        · exact ((hchain _ (by omega)).2 x).2 ⟨q, hx, by rw [a2]; exact h1⟩
        · exact ((hchain _ (by omega)).2 x).2 ⟨q, hx, by rw [b2]; exact h2⟩

example : (∀ c ∈ [[1], [2], [3, 2]], c = []) ∨ (∀ c ∈ [[1], [2], [3, 2]], c ≠ []) ∧
    ∃ (u v : Nat) (c d : List Nat) (q : Nat), u ≠ v ∧ [[1], [2], [3, 2]][u]? = some c ∧
      [[1], [2], [3, 2]][v]? = some d ∧ q ∈ c ∧ q ∈ d :=
  (C11_result_contract Demo.sortOK Demo.triangle_ok (Input.compatible_of_nil rfl) _ _ _ _ _ _
    Demo.triangle_run).2.2.2 rfl rfl

/-! ### C05 -/

/-- **C05.** On well-formed input no run of the search does anything undefined or loops for
ever: it returns, or ends with one of the documented exceptions. -/
theorem C05_no_undefined_behaviour (hs : SortOK sort) (hI : I.OK) (hr : I.Compatible)
    (C : Cfg) (A : Params) (ro : Bool) (t : Tape) :
    (∃ r, findEmbedding sort C A ro I t = .ok r) ∨
    ∃ e, findEmbedding sort C A ro I t = .error e ∧ e ∈ [Fault.badInit, .cancelled, .corrupt, .small] := by
  have h := findEmbedding_free hs hI hr C A ro t
  cases hc : findEmbedding sort C A ro I t with
  | ok r => exact Or.inl ⟨r, rfl⟩
  | error e =>
    rw [hc] at h
    obtain ⟨h1, h2, _⟩ := h
    refine Or.inr ⟨e, rfl, ?_⟩
    cases e <;> simp_all

example : (∃ r, findEmbedding Demo.sortBySize Demo.cfg Demo.params true Demo.star Demo.tape0 = .ok r) ∨
    ∃ e, findEmbedding Demo.sortBySize Demo.cfg Demo.params true Demo.star Demo.tape0 = .error e ∧
      e ∈ [Fault.badInit, .cancelled, .corrupt, .small] :=
  C05_no_undefined_behaviour Demo.sortOK Demo.star_ok (Input.compatible_of_nil rfl) _ _ _ _

/-! ### where the code departs from the claims -/

namespace Demo

/-- A star in which the restrictions of the leaves allow more than the centre. -/
def masked : Input :=
  { src := ⟨4, [(0, 1), (0, 2), (0, 3)]⟩, tgt := ⟨6, [(5, 4), (4, 3), (3, 2), (2, 1), (2, 0)]⟩, fixedC := []
    initC := [(1, [1]), (2, [0]), (3, [5])], restrC := [(0, [3]), (1, [2, 1]), (2, [2, 0]), (3, [5, 4])] }

/-- The same with the target nodes numbered the other way. -/
def masked' : Input :=
  { src := ⟨4, [(0, 1), (0, 2), (0, 3)]⟩, tgt := ⟨6, [(0, 1), (1, 2), (2, 3), (3, 4), (3, 5)]⟩, fixedC := []
    initC := [(1, [4]), (2, [5]), (3, [0])], restrC := [(0, [2]), (1, [3, 4]), (2, [3, 5]), (3, [0, 1])] }

theorem masked_ok : masked.OK := Checked.ok (by decide)

theorem masked'_ok : masked'.OK := Checked.ok (by decide)

theorem masked_run : findEmbedding sortBySize cfg params false masked tape0 = .ok (true, [[3, 2], [1], [0], [5]]) := by
  decide +kernel

/-- A path confined to three nodes of a cycle. -/
def confined : Input :=
  { path3 with restrC := [(0, [1, 2, 3]), (1, [1, 2, 3]), (2, [1, 2, 3])], initC := [(2, [3])] }

theorem confined_ok : confined.OK := Checked.ok (by decide)

/-- An edge, one end fixed, the initial chain of the other on the same qubit. -/
def onFixed : Input :=
  { src := ⟨2, [(0, 1)]⟩, tgt := ⟨2, [(0, 1)]⟩, fixedC := [(0, [0])], initC := [(1, [0])], restrC := [] }

/-- An initial chain for a fixed variable. -/
def initFixed : Input :=
  { src := ⟨2, [(0, 1)]⟩, tgt := ⟨3, [(0, 1), (1, 2)]⟩, fixedC := [(0, [0])], initC := [(0, [1])], restrC := [] }

/-- The initial chain of a variable with a free neighbour, on a fixed qubit. -/
def nextToFixed : Input :=
  { src := ⟨3, [(1, 2), (0, 0)]⟩, tgt := ⟨3, [(0, 1), (1, 2)]⟩, fixedC := [(0, [0])], initC := [(1, [0])]
    restrC := [] }

end Demo

/-- **C01, C04 fail** if an initial chain meets a fixed chain: the call reports success with
two equal chains. -/
theorem C04_not_unshared : ∃ (I : Input) (sort : List (List Nat) → List (List Nat)) (C : Cfg) (A : Params) (t : Tape),
    SortOK sort ∧ I.restrC = [] ∧ I.fixedC = [(0, [0])] ∧ I.initC = [(1, [0])] ∧
    findEmbedding sort C A false I t = .ok (true, [[0], [0]]) :=
  ⟨Demo.onFixed, Demo.sortBySize, Demo.cfg, Demo.params, Demo.tape0, Demo.sortOK, rfl, rfl, rfl, by decide +kernel⟩

/-- **C05 fails** if an initial chain is given for a fixed variable, -/
theorem C05_undefined_initial_for_fixed : ∃ (sort : List (List Nat) → List (List Nat)) (C : Cfg) (A : Params) (t : Tape),
    SortOK sort ∧ findEmbedding sort C A false Demo.initFixed t = .error .ub :=
  ⟨Demo.sortBySize, Demo.cfg, Demo.params, Demo.tape0, Demo.sortOK, by decide +kernel⟩

/-- and if an initial chain uses a qubit of a fixed chain. -/
theorem C05_undefined_initial_on_fixed : ∃ (sort : List (List Nat) → List (List Nat)) (C : Cfg) (A : Params) (t : Tape),
    SortOK sort ∧ findEmbedding sort C A false Demo.nextToFixed t = .error .ub :=
  ⟨Demo.sortBySize, Demo.cfg, Demo.params, Demo.tape0, Demo.sortOK, by decide +kernel⟩

/-- **C02 fails** in general: there is well-formed input with `restrict_chains` for which the
call reports success although the chains of two adjacent source nodes are not joined. -/
theorem C02_success_not_valid : ∃ (I : Input) (sort : List (List Nat) → List (List Nat)) (C : Cfg) (A : Params)
    (t : Tape) (cs : List (List Nat)), SortOK sort ∧ I.OK ∧ I.fixedC = [] ∧
    findEmbedding sort C A false I t = .ok (true, cs) ∧
    ∃ u v c d, I.src.Edge u v ∧ u ≠ v ∧ cs[u]? = some c ∧ cs[v]? = some d ∧ ¬ Spec.Joined I.tgt c d := by
  refine ⟨Demo.masked, Demo.sortBySize, Demo.cfg, Demo.params, Demo.tape0, _, Demo.sortOK, Demo.masked_ok, rfl,
    Demo.masked_run, 0, 3, [3, 2], [5], by decide, by decide, rfl, rfl, ?_⟩
  have : ∀ p ∈ [3, 2], ∀ q ∈ [5], ¬ Demo.masked.tgt.Edge p q := by decide
  rintro ⟨p, hp, q, hq, h⟩
  exact this p hp q hq h

/-- **C05 fails** with `restrict_chains`: following the recorded path never ends. -/
theorem C05_endless_with_restrictions : ∃ (I : Input) (sort : List (List Nat) → List (List Nat)) (C : Cfg)
    (A : Params) (t : Tape), SortOK sort ∧ I.OK ∧ I.fixedC = [] ∧
    findEmbedding sort C A false I t = .error .diverge :=
  ⟨Demo.masked', Demo.sortBySize, Demo.cfg, Demo.params, Demo.tape0, Demo.sortOK, Demo.masked'_ok, rfl,
    by decide +kernel⟩

/-! ### C03 -/

/-- **C03 fails**: a chain leaves its restriction although the initial chains respect
theirs. -/
theorem C03_not_confined : ∃ (I : Input) (sort : List (List Nat) → List (List Nat)) (C : Cfg) (A : Params)
    (t : Tape) (cs : List (List Nat)), SortOK sort ∧ I.OK ∧
    (∀ kv ∈ I.initC, ∀ x ∈ kv.2, I.Allows kv.1.toNat x.toNat) ∧
    findEmbedding sort C A false I t = .ok (true, cs) ∧
    ∃ u c q, cs[u]? = some c ∧ q ∈ c ∧ ¬ I.Allows u q := by
  refine ⟨Demo.masked, Demo.sortBySize, Demo.cfg, Demo.params, Demo.tape0, _, Demo.sortOK, Demo.masked_ok, ?_,
    Demo.masked_run, 0, [3, 2], 2, rfl, by decide, ?_⟩
  · have : ∀ kv ∈ Demo.masked.initC, ∀ x ∈ kv.2, ∀ kv' ∈ Demo.masked.restrC, kv'.1 = (kv.1.toNat : Int) →
      (x.toNat : Int) ∈ kv'.2 := by decide
    exact this
  · intro h
    have := h (0, [3]) (by decide) rfl
    revert this; decide

/-- **C03, what holds.** For compatible restrictions, and initial chains that keep to them,
every chain of a free node stays within its own restriction and those of its neighbours. -/
theorem C03_confined_softly_partial (hs : SortOK sort) (hI : I.OK) (hr : I.Compatible)
    (hi : ∀ kv ∈ I.initC, ∀ x ∈ kv.2, I.Allows kv.1.toNat x.toNat ∨
      ∃ v, I.src.Edge kv.1.toNat v ∧ v ≠ kv.1.toNat ∧ I.Allows v x.toNat)
    (C : Cfg) (A : Params) (ro ok : Bool) (t : Tape) (cs : List (List Nat))
    (h : findEmbedding sort C A ro I t = .ok (ok, cs)) :
    ∀ (u : Nat) (c : List Nat), ¬ I.FixV u → cs[u]? = some c → ∀ q ∈ c,
      I.Allows u q ∨ ∃ v, I.src.Edge u v ∧ v ≠ u ∧ I.Allows v q := by
  obtain ⟨p, l0, E, hf⟩ := findEmbedding_soft hs hI hr hi h
  intro u c hu hc q hq
  have hg : ok = true ∨ ro = true := by
    cases ok with
    | true => exact Or.inl rfl
    | false =>
      cases ro with
      | true => exact Or.inr rfl
      | false => have := hf.none rfl rfl; dsimp only at this; rw [this] at hc; simp at hc
  obtain ⟨hlen, hcs⟩ := hf.given hg
  dsimp only at hlen hcs
  have hul : u < I.src.n := by
    rw [← hlen]; by_contra hc'; rw [List.getElem?_eq_none (by omega)] at hc; simp at hc
  have hE : EInv p.P p.P.Soft E ∨ E = Emb.empty := by
    cases ok with
    | true => exact Or.inl (hf.yes rfl).1
    | false => exact (hf.no rfl).symm.imp_left fun h => h.1
  obtain ⟨j, hj, hh⟩ := ((hcs u c hc).2 q).1 hq
  rcases hE with hE | rfl
  · have hnv : p.screw u < p.P.nv := by
      by_contra hcc; exact hu ((hf.rep.fixed u hul).1 (by omega))
    obtain ⟨_, ha | ⟨v, hv, ha⟩⟩ := hE.dom _ j hnv hh
    · left; exact (hf.rep.acc_iff hul hj).1 ha
    · right
      obtain ⟨_, _, hne, he, w1, w2, _, _⟩ := hf.rep.vn_iff hnv hv
      rw [hf.rep.su u hul] at hne he
      refine ⟨p.unscrew v, he, Ne.symm hne, ?_⟩
      rw [← w2] at ha
      exact (hf.rep.acc_iff w1 hj).1 ha
  · simp [Emb.empty, Chain.empty, Chain.has] at hh

/-- **C03** when every node has the same restriction. -/
theorem C03_confined_uniform_partial (hs : SortOK sort) (hI : I.OK) {D : Nat → Prop}
    (hD : ∀ u x, u < I.src.n → (I.Allows u x ↔ D x))
    (hi : ∀ kv ∈ I.initC, ∀ x ∈ kv.2, D x.toNat)
    (C : Cfg) (A : Params) (ro ok : Bool) (t : Tape) (cs : List (List Nat))
    (h : findEmbedding sort C A ro I t = .ok (ok, cs)) :
    ∀ (u : Nat) (c : List Nat), ¬ I.FixV u → cs[u]? = some c → ∀ q ∈ c, I.Allows u q := by
  have hcomp : I.Compatible := by
    intro u v v' x _ e1 e2 _ _ _ ha
    have a := IGraph.Edge.lt hI.src e1
    have b := IGraph.Edge.lt hI.src e2
    exact Or.inl ((hD u x a.1).2 ((hD v' x b.2).1 ha))
  have hi' : ∀ kv ∈ I.initC, ∀ x ∈ kv.2, I.Allows kv.1.toNat x.toNat ∨
      ∃ v, I.src.Edge kv.1.toNat v ∧ v ≠ kv.1.toNat ∧ I.Allows v x.toNat := by
    intro kv hkv x hx
    by_cases hk : kv.1.toNat < I.src.n
    · exact Or.inl ((hD _ _ hk).2 (hi kv hkv x hx))
    · exfalso
      obtain ⟨p, l0, E, hf⟩ := findEmbedding_final hs hI hcomp h
      have := (hf.rep.irange kv hkv).1
      omega
  intro u c hu hc q hq
  have hul : u < I.src.n := by
    obtain ⟨p, l0, E, hf⟩ := findEmbedding_final hs hI hcomp h
    cases hx : (ok || ro) with
    | true =>
      have := (hf.given (by simpa using hx)).1
      dsimp only at this
      rw [← this]; by_contra hc'; rw [List.getElem?_eq_none (by omega)] at hc; simp at hc
    | false =>
      simp only [Bool.or_eq_false_iff] at hx
      have := hf.none hx.1 hx.2
      dsimp only at this; rw [this] at hc; simp at hc
  rcases C03_confined_softly_partial hs hI hcomp hi' C A ro ok t cs h u c hu hc q hq with ha | ⟨v, hv, _, ha⟩
  · exact ha
  · exact (hD u q hul).2 ((hD v q (IGraph.Edge.lt hI.src hv).2).1 ha)

namespace Demo

theorem confined_uniform : ∀ u x, u < confined.src.n → (confined.Allows u x ↔ x = 1 ∨ x = 2 ∨ x = 3) := by
  intro u x hu
  have hu : u < 3 := hu
  have : u = 0 ∨ u = 1 ∨ u = 2 := by omega
  rcases this with rfl | rfl | rfl <;> simp [Input.Allows, confined] <;> omega

theorem confined_compatible : confined.Compatible := by
  intro u v v' x _ e1 e2 _ _ _ ha
  have a := IGraph.Edge.lt confined_ok.src e1
  have b := IGraph.Edge.lt confined_ok.src e2
  exact Or.inl ((confined_uniform u x a.1).2 ((confined_uniform v' x b.2).1 ha))

theorem confined_run : findEmbedding sortBySize cfg params false confined tape0 = .ok (true, [[1], [2], [3]]) := by
  decide +kernel

end Demo

example : Spec.EmbedsUpTo Demo.confined.FixV Demo.confined.src Demo.confined.tgt [[1], [2], [3]] :=
  C02_success_is_minor_embedding_partial Demo.sortOK Demo.confined_ok Demo.confined_compatible _ _ _ _ _
    Demo.confined_run

example : ∀ (u : Nat) (c : List Nat), ¬ Demo.confined.FixV u → [[1], [2], [3]][u]? = some c → ∀ q ∈ c,
    Demo.confined.Allows u q :=
  C03_confined_uniform_partial Demo.sortOK Demo.confined_ok Demo.confined_uniform (by decide) _ _ _ _ _ _
    Demo.confined_run

example : ∀ (u : Nat) (c : List Nat), ¬ Demo.confined.FixV u → [[1], [2], [3]][u]? = some c → ∀ q ∈ c,
    Demo.confined.Allows u q ∨ ∃ v, Demo.confined.src.Edge u v ∧ v ≠ u ∧ Demo.confined.Allows v q :=
  C03_confined_softly_partial Demo.sortOK Demo.confined_ok Demo.confined_compatible
    (fun kv hkv x hx => Or.inl ((Demo.confined_uniform _ _ (by clear hx; revert kv; decide)).2 (by revert x; revert kv; decide)))
    _ _ _ _ _ _ Demo.confined_run

end MM
