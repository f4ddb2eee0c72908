import Verif.Props.Greedy
import Verif.Props.Feasible

/-! Property C128: `find_multiple_embeddings` goes on while there is room. -/

namespace MM

open Py Spec.Py

variable {α β : Type} [DecidableEq α] [DecidableEq β]

/-- `emb` is an embedding of the kind asked for: with `iter` a minor embedding, otherwise one that maps every node to a single node and loops to loops. -/
structure Spec.Py.Place (iter : Bool) (S : Graph α) (G : Graph β) (emb : α → Option (List β)) : Prop where
  minor : MinorEmbedding S G emb
  single : iter = false → ∀ x ∈ S.nodes, ∃ q, emb x = some [q] ∧ (S.Adj x x → G.Adj q q)

/-- The embedder answers whenever there is an answer. -/
def Spec.Py.ThoroughEmbedder (iter : Bool) (E : Env α β) (S : Graph α) : Prop :=
  ∀ k G, G.WF → (∃ emb, Place iter S G emb) → E.embedder k S G ≠ []

/-- The filter lets everything pass that can be embedded. -/
def Spec.Py.LenientFilter (iter : Bool) (E : Env α β) (S : Graph α) : Prop :=
  ∀ G, G.WF → (∃ emb, Place iter S G emb) → E.filter S G (!iter) = true

namespace Py

/-- The loop ends with the number asked for, or where nothing fits any more. -/
theorem multiLoop_stops {E : Env α β} {S : Graph α} {uf iter : Bool} {m : Int} (hE : Honest iter E) (hth : ThoroughEmbedder iter E S)
    (hf : uf = true → LenientFilter iter E S) (hlate : ∀ k, E.late k = false) {T : Graph β} (hT : T.WF) :
    ∀ (r k : Nat) (cur : Option (Graph β)) (embs : List (Emb α β)), embs.length = k → r + k = m.toNat →
      (1 < m ∨ embs = [] → Left T (cur.elim T id) embs) → (embs ≠ [] → 1 < m → cur ≠ none) →
      ∀ out, (multiLoop E S uf iter m r k T cur embs).1 = .ok out →
        out.length = m.toNat ∨ ∃ G, Left T G out ∧ ¬ ∃ emb, Place iter S G emb := by
  intro r
  induction r with
  | zero =>
    intro k cur embs hk hr _ _ out ho
    simp only [multiLoop, Except.ok.injEq] at ho
    rw [← ho]
    exact .inl (by omega)
  | succ r ih =>
    intro k cur embs hk hr hL hcur out ho
    have hor : 1 < m ∨ embs = [] := by
      by_cases hm : 1 < m
      · exact .inl hm
      · exact .inr (List.length_eq_zero_iff.mp (by omega))
    have hL := hL hor
    unfold multiLoop at ho
    dsimp only at ho
    split at ho
    · rename_i hfil
      simp only [Except.ok.injEq] at ho
      rw [← ho]
      rw [Bool.and_eq_true, Bool.not_eq_true'] at hfil
      refine .inr ⟨_, hL, fun hroom => ?_⟩
      have := hf hfil.1 _ hL.wf hroom
      rw [hfil.2] at this
      cases this
    rw [if_neg (by rw [hlate]; decide)] at ho
    split at ho
    · rename_i hemp
      simp only [Except.ok.injEq] at ho
      rw [← ho]
      exact .inr ⟨_, hL, fun hroom => hth k _ hL.wf hroom hemp⟩
    rename_i hne
    split at ho
    · rename_i hm
      rw [removal_used fun kv hkv => (hE k S _ kv hkv).1] at ho
      dsimp only at ho
      by_cases he : embs = []
      · rw [if_pos he] at ho
        refine ih (k + 1) _ _ (by simp [hk]) (by omega) (fun _ => ?_) (by simp) out ho
        subst he
        exact (show Left T T ([] : List (Emb α β)) from ⟨hT, by simp, by simp⟩).remove _
      · rw [if_neg he] at ho
        cases hc : cur with
        | none => exact absurd hc (hcur he hm)
        | some H =>
          rw [hc] at ho hL
          refine ih (k + 1) _ _ (by simp [hk]) (by omega) (fun _ => ?_) (by simp) out ho
          exact hL.remove _
    · rename_i hm
      exact ih (k + 1) _ _ (by simp [hk]) (by omega) (fun h => h.elim (fun h => absurd h hm) fun h => by simp at h) (fun _ h => absurd h hm) out ho

omit [DecidableEq α] [DecidableEq β] in
theorem Place.narrow {iter : Bool} {S : Graph α} {T G : Graph β} {embs : List (Emb α β)} (h : Left T G embs) (hS : S.WF) {emb : α → Option (List β)} (he : Place iter S T emb)
    (hfree : ∀ x ∈ S.nodes, ∀ c, emb x = some c → ∀ q ∈ c, ∀ e ∈ embs, q ∉ e.used) : Place iter S G emb := by
  refine ⟨he.minor.narrow h hS hfree, fun hi x hx => ?_⟩
  obtain ⟨q, h1, h2⟩ := he.single hi x hx
  have := hfree x hx [q] h1 q (List.mem_singleton.mpr rfl)
  exact ⟨q, h1, fun hxx => (h.adj q q).mpr ⟨h2 hxx, this, this⟩⟩

omit [DecidableEq α] [DecidableEq β] in
theorem Place.same {iter : Bool} {S S' : Graph α} {T : Graph β} (hS : SameGraph S S') (hT : T.WF) {emb : α → Option (List β)} (he : Place iter S T emb) : Place iter S' T emb :=
  ⟨he.minor.wider hS (Inside.refl hT), fun hi x hx => by
    obtain ⟨q, h1, h2⟩ := he.single hi x ((hS.1 x).mpr hx)
    exact ⟨q, h1, fun hxx => h2 ((hS.2 x x).mpr hxx)⟩⟩

omit [DecidableEq β] in
theorem lookup_nodes (f : α → Val β) (l : List α) {x : α} (hx : x ∈ l) : List.lookup x (l.map fun x => (x, f x)) = some (f x) := by
  induction l with
  | nil => cases hx
  | cons a l ih =>
    rw [List.map_cons, List.lookup_cons]
    by_cases h : x = a
    · rw [h, beq_self_eq_true]
    · rw [beq_eq_false_iff_ne.mpr h]
      exact ih ((List.mem_cons.mp hx).resolve_left h)

/-- A chain as a value. -/
def valOf (iter : Bool) : Option (List β) → Val β
  | some (q :: c) => if iter then .tup (q :: c) else .one q
  | _ => .lst []

/-- A place as a dictionary. -/
def asEmb (iter : Bool) (S : Graph α) (emb : α → Option (List β)) : Emb α β := S.nodes.map fun x => (x, valOf iter (emb x))

omit [DecidableEq β] in
theorem asEmb_chains {iter : Bool} {S : Graph α} {G : Graph β} {emb : α → Option (List β)} (h : Place iter S G emb) {x : α} (hx : x ∈ S.nodes) :
    (asEmb iter S emb).chains iter x = emb x := by
  unfold Emb.chains asEmb
  rw [lookup_nodes _ _ hx]
  dsimp only
  cases iter with
  | true =>
    obtain ⟨c, hc, hne⟩ := h.minor.chain x hx
    cases c with
    | nil => exact absurd rfl hne
    | cons q c => rw [hc]; rfl
  | false =>
    obtain ⟨q, hq, -⟩ := h.single rfl x hx
    rw [hq]; rfl

omit [DecidableEq α] [DecidableEq β] in
theorem minor_congr {S : Graph α} {G : Graph β} (hS : S.WF) {e e' : α → Option (List β)} (h : ∀ x ∈ S.nodes, e' x = e x) (he : MinorEmbedding S G e) : MinorEmbedding S G e' where
  chain x hx := by rw [h x hx]; exact he.chain x hx
  nodes x hx := by rw [h x hx]; exact he.nodes x hx
  linked x hx := by rw [h x hx]; exact he.linked x hx
  disjoint x hx y hy := by rw [h x hx, h y hy]; exact he.disjoint x hx y hy
  edges x y hxy := by
    have hxy' : x ∈ S.nodes ∧ y ∈ S.nodes := hxy.elim (fun h => hS.2 _ h) fun h => (hS.2 _ h).symm
    rw [h x hxy'.1, h y hxy'.2]
    exact he.edges x y hxy

end Py

/-- **C128.** Suppose that `find_multiple_embeddings` returns fewer embeddings than asked for, although the time was not up. Then each embedding of the kind asked for
that the target graph has shares a target node with one of those returned: no further one would fit beside them. The embedder is any that finds an embedding
whenever there is one; the filter may be used or not, the graphs shuffled or not. -/
theorem C128_maximal {E : Env α β} {S : Graph α} {T : Graph β} {iter uf : Bool} {shuf : Option (Graph α × Graph β)} {limit : Option Int} (hS : S.WF) (hT : T.WF) (hne : S.nodes ≠ [])
    (hh : Honest iter E) (hsh : ∀ p, shuf = some p → SameGraph p.1 S ∧ p.1.WF ∧ SameGraph p.2 T ∧ p.2.WF)
    (hsound : SoundEmbedder iter E (shuf.elim S Prod.fst)) (hth : ThoroughEmbedder iter E (shuf.elim S Prod.fst))
    (hf : uf = true → LenientFilter iter E (shuf.elim S Prod.fst)) (hlate : ∀ k, E.late k = false)
    {embs : List (Emb α β)} (h : (findMultiple E S T true limit uf iter shuf).1 = .ok embs) (hlim : ∀ n, limit = some n → (embs.length : Int) < n) :
    ∀ emb, Place iter S T emb → ∃ e ∈ embs, ∃ x ∈ S.nodes, ∃ c, emb x = some c ∧ ∃ q ∈ c, q ∈ e.used := by
  intro emb hp
  by_contra hno
  have hfree : ∀ x ∈ S.nodes, ∀ c, emb x = some c → ∀ q ∈ c, ∀ e ∈ embs, q ∉ e.used := fun x hx c hc q hq e he hqe => hno ⟨e, he, x, hx, c, hc, q, hq, hqe⟩
  have hpos : 0 < S.nodes.length := List.length_pos_iff.mpr hne
  obtain ⟨embs', e1, e2, -⟩ := C28_disjoint_and_limited (E := E) (S := S) (T := T) (iter := iter) (shuf := shuf) ⟨hh, fun p hp => (hsh p hp).2.2.1⟩ hne true limit uf
  rw [h] at e1; cases e1
  have hval := C67_multiple hT hsound (fun p hp => ⟨(hsh p hp).1, (hsh p hp).2.2⟩) h
  have hsame : SameGraph S (shuf.elim S Prod.fst) := by
    cases shuf with
    | none => exact ⟨fun _ => Iff.rfl, fun _ _ => Iff.rfl⟩
    | some p => exact ⟨fun q => ((hsh p rfl).1.1 q).symm, fun a b => ((hsh p rfl).1.2 a b).symm⟩
  have hfull := h
  unfold findMultiple at h
  rw [if_neg (by decide), if_neg (by omega)] at h
  dsimp only at h
  generalize hm : limit.elim ((T.nodes.length / S.nodes.length : Nat) : Int) (min ((T.nodes.length / S.nodes.length : Nat) : Int)) = m at h
  rcases multiLoop_stops hh hth hf hlate hT m.toNat 0 (shuf.map Prod.snd) [] rfl (by omega) (fun _ => by
      cases shuf with
      | none => exact ⟨hT, by simp, by simp⟩
      | some p => exact ⟨(hsh p rfl).2.2.2, by simpa using (hsh p rfl).2.2.1.1, by simpa using (hsh p rfl).2.2.1.2⟩) (fun h => absurd rfl h) embs h with hlen | ⟨G, hL, hroom⟩
  · -- as many as the numbers of nodes allow
    have hmost : T.nodes.length / S.nodes.length ≤ embs.length := by
      cases hl : limit with
      | none => rw [hl] at hm; simp only [Option.elim_none] at hm; omega
      | some n => have := hlim n hl; rw [hl] at hm; simp only [Option.elim_some] at hm; omega
    have hF : Filled S T iter (embs ++ [asEmb iter S emb]) := by
      refine ⟨fun e he => ?_, ?_⟩
      · rcases List.mem_append.mp he with he | he
        · exact hval e he
        · rw [List.mem_singleton.mp he]
          exact minor_congr hS (fun x hx => asEmb_chains hp hx) hp.minor
      · rw [List.pairwise_append]
        refine ⟨?_, List.pairwise_singleton _ _, fun e he e' he' x hx c hc q hq hqe => ?_⟩
        · exact e2.imp fun {a b} hab x _ c hc q hq hqa => hab q hqa (chains_used hc q hq)
        · rw [List.mem_singleton.mp he', asEmb_chains hp hx] at hc
          exact hfree x hx c hc q hq e he hqe
    have := hF.count hS
    rw [List.length_append, List.length_singleton] at this
    have h2 := Nat.lt_div_mul_add (a := T.nodes.length) hpos
    have h3 := Nat.mul_le_mul_right S.nodes.length hmost
    rw [Nat.succ_mul] at this
    omega
  · exact hroom ⟨emb, Place.same hsame hL.wf (Place.narrow hL hS hp hfree)⟩

/-- The filter of the code lets everything pass that can be embedded, for a source graph with no edge twice and, for minor embeddings, no loops. -/
theorem C128_filter {E : Env α β} {S : Graph α} (hS : S.WF) (hs : Simple S) {iter : Bool} (hl : iter = true → Loopless S)
    (hE : ∀ G one, ∃ same, E.filter S G one = decide (feasible same S G one ≠ .ok false)) : LenientFilter iter E S := by
  intro G hG hroom
  obtain ⟨emb, hp⟩ := hroom
  obtain ⟨same, e⟩ := hE G (!iter)
  rw [e, decide_eq_true_eq]
  cases iter with
  | true =>
    rw [show (!true) = false from rfl, C31_minor_embedding_accepted_partial hS hs (hl rfl) hp.minor same]
    nofun
  | false =>
    have hx : ∀ x, x ∈ S.nodes → ∃ q, emb x = some [q] ∧ (S.Adj x x → G.Adj q q) := hp.single rfl
    by_cases hn : S.nodes = []
    · have : ∀ a b, S.Adj a b → False := fun a b hab => by
        have hm : a ∈ S.nodes := hab.elim (fun h => (hS.2 _ h).1) fun h => (hS.2 _ h).2
        rw [hn] at hm; cases hm
      have hE0 : S.edges = [] := List.eq_nil_iff_forall_not_mem.mpr fun e he => this e.1 e.2 (.inl he)
      unfold feasible
      rw [hn, hE0]
      simp
    · obtain ⟨x0, hx0⟩ := List.exists_mem_of_ne_nil _ hn
      obtain ⟨q0, -, -⟩ := hx x0 hx0
      have hmem : ∀ x y, S.Adj x y → x ∈ S.nodes ∧ y ∈ S.nodes := fun x y hxy => hxy.elim (fun h => hS.2 _ h) fun h => (hS.2 _ h).symm
      have hsub : SubgraphEmbedding S G (fun x => ((emb x).bind List.head?).getD q0) := by
        have hval : ∀ {x q}, emb x = some [q] → ((emb x).bind List.head?).getD q0 = q := fun h => by rw [h]; rfl
        refine ⟨fun x hxm => ?_, fun x hxm y hym hxy => ?_, fun x y hxy => ?_⟩
        · obtain ⟨q, h1, -⟩ := hx x hxm
          rw [hval h1]
          exact hp.minor.nodes x hxm _ h1 q (List.mem_singleton.mpr rfl)
        · obtain ⟨q, h1, -⟩ := hx x hxm
          obtain ⟨r, h2, -⟩ := hx y hym
          rw [hval h1, hval h2] at hxy
          by_contra hne
          exact hp.minor.disjoint x hxm y hym hne _ _ h1 h2 q (List.mem_singleton.mpr rfl) (by rw [hxy]; exact List.mem_singleton.mpr rfl)
        · obtain ⟨q, h1, h1'⟩ := hx x (hmem x y hxy).1
          obtain ⟨r, h2, -⟩ := hx y (hmem x y hxy).2
          rw [hval h1, hval h2]
          by_cases hxye : x = y
          · subst hxye
            rw [h1] at h2; cases h2
            exact h1' hxy
          · obtain ⟨a, ha, b, hb, hab⟩ := hp.minor.edges x y hxy hxye _ _ h1 h2
            rw [List.mem_singleton.mp ha, List.mem_singleton.mp hb] at hab
            exact hab
      rw [C31_subgraph_accepted hS hs hsub same]
      nofun

namespace Demo

open Classical in
/-- An embedder with all the time in the world, and no filter. -/
noncomputable def thoroughEnv (iter : Bool) : Env Nat Nat where
  filter _ _ _ := true
  late _ := false
  embedder _ S G := if h : ∃ emb, Place iter S G emb then asEmb iter S h.choose else []

theorem thoroughEnv_honest (iter : Bool) : Honest iter (thoroughEnv iter) := by
  intro k S G kv hkv
  simp only [thoroughEnv] at hkv
  split at hkv
  · rename_i h
    have hp := h.choose_spec
    generalize h.choose = emb at hkv hp
    obtain ⟨x, hx, rfl⟩ := List.mem_map.mp hkv
    dsimp only
    cases iter with
    | true =>
      obtain ⟨c, hc, hne⟩ := hp.minor.chain x hx
      cases c with
      | nil => exact absurd rfl hne
      | cons q c =>
        rw [hc]
        exact ⟨rfl, fun r hr => hp.minor.nodes x hx _ hc r hr⟩
    | false =>
      obtain ⟨q, hq, -⟩ := hp.single rfl x hx
      rw [hq]
      exact ⟨rfl, fun r hr => hp.minor.nodes x hx _ hq r hr⟩
  · cases hkv

theorem thoroughEnv_sound (iter : Bool) {S : Graph Nat} (hS : S.WF) : SoundEmbedder iter (thoroughEnv iter) S := by
  intro k G _
  simp only [thoroughEnv]
  split
  · rename_i h
    exact .inr (minor_congr hS (fun x hx => asEmb_chains h.choose_spec hx) h.choose_spec.minor)
  · exact .inl rfl

theorem thoroughEnv_thorough (iter : Bool) {S : Graph Nat} (hS : S.nodes ≠ []) : ThoroughEmbedder iter (thoroughEnv iter) S := by
  intro k G _ h
  simp only [thoroughEnv]
  rw [dif_pos h]
  unfold asEmb
  rw [ne_eq, List.map_eq_nil_iff]
  exact hS

end Demo

/-- The hypotheses are met by the search for edges in a path of six nodes, and the list returned is not empty. -/
example : ∃ embs, (findMultiple (Demo.thoroughEnv false) Demo.edge2 Demo.path6 true none true false none).1 = .ok embs ∧ embs ≠ [] := by
  have hne : Demo.edge2.nodes ≠ [] := by decide
  obtain ⟨embs, h, -⟩ := C28_disjoint_and_limited (S := Demo.edge2) (T := Demo.path6) (shuf := none) ⟨Demo.thoroughEnv_honest false, nofun⟩ hne true none true
  refine ⟨embs, h, ?_⟩
  have hp : Place false Demo.edge2 Demo.path6 (fun x => some [x + 10]) := by
    refine ⟨⟨fun x _ => ⟨_, rfl, by simp⟩, ?_, ?_, ?_, ?_⟩, ?_⟩
    · intro x hx c hc q hq
      cases hc
      rw [List.mem_singleton.mp hq]
      clear hq q
      revert x; decide
    · intro x hx c hc a ha b hb
      cases hc
      rw [List.mem_singleton.mp ha, List.mem_singleton.mp hb]
    · intro x _ y _ hxy c d hc hd q hq hq'
      cases hc; cases hd
      have h1 := List.mem_singleton.mp hq
      have h2 := List.mem_singleton.mp hq'
      omega
    · intro x y hxy _ c d hc hd
      cases hc; cases hd
      refine ⟨_, List.mem_singleton.mpr rfl, _, List.mem_singleton.mpr rfl, ?_⟩
      rcases hxy with hxy | hxy <;> · simp only [Demo.edge2, List.mem_singleton, Prod.mk.injEq] at hxy; obtain ⟨rfl, rfl⟩ := hxy; unfold Graph.Adj; decide
    · intro _ x _
      refine ⟨_, rfl, fun hxx => ?_⟩
      rcases hxx with hxx | hxx <;> · simp only [Demo.edge2, List.mem_singleton, Prod.mk.injEq] at hxx; omega
  obtain ⟨e, he, -⟩ := C128_maximal (shuf := none) Demo.edge2_wf Demo.path6_wf hne (Demo.thoroughEnv_honest false) nofun (Demo.thoroughEnv_sound false Demo.edge2_wf)
    (Demo.thoroughEnv_thorough false hne) (fun _ _ _ _ => rfl) (fun _ => rfl) h nofun _ hp
  exact List.ne_nil_of_mem he

end MM
