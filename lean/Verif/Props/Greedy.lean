import Verif.Props.Valid
import Mathlib.Data.List.Nodup
import Mathlib.Data.List.Perm.Subperm

/-! Property C82: with an embedding for the tile, the search over sublattices leaves no place out. -/

namespace MM

open Py Spec.Py Relation

variable {α β τ : Type} [DecidableEq α] [DecidableEq β] [DecidableEq τ]

/-- The chains of an embedding for the tile, carried over to a sublattice. -/
def Spec.Py.carried (f : τ → β) (chains : α → Option (List τ)) (x : α) : Option (List β) := (chains x).map fun c => c.map f

namespace Py

/-- What is left of `T` where some embeddings are removed. -/
structure Left (T G : Graph β) (embs : List (Emb α β)) : Prop where
  wf : G.WF
  nodes : ∀ q, q ∈ G.nodes ↔ q ∈ T.nodes ∧ ∀ e ∈ embs, q ∉ e.used
  adj : ∀ p q, G.Adj p q ↔ T.Adj p q ∧ (∀ e ∈ embs, p ∉ e.used) ∧ ∀ e ∈ embs, q ∉ e.used

omit [DecidableEq α] in
theorem Left.remove {T G : Graph β} {embs : List (Emb α β)} (h : Left T G embs) (e : Emb α β) : Left T (G.remove e.used) (embs ++ [e]) := by
  refine ⟨h.wf.remove _, fun q => ?_, fun p q => ?_⟩
  · rw [mem_remove, h.nodes]
    simp only [List.mem_append, List.mem_singleton, or_imp, forall_and, forall_eq]
    tauto
  · rw [remove_adj, h.adj]
    simp only [List.mem_append, List.mem_singleton, or_imp, forall_and, forall_eq]
    tauto

omit [DecidableEq α] [DecidableEq β] in
theorem Left.inside {T G : Graph β} {embs : List (Emb α β)} (h : Left T G embs) : Inside G T :=
  ⟨h.wf, fun q hq => ((h.nodes q).mp hq).1, fun p q hpq => ((h.adj p q).mp hpq).1⟩

omit [DecidableEq α] [DecidableEq β] in
/-- An embedding in `T` that avoids what was removed is one in what is left. -/
theorem _root_.MM.Spec.Py.MinorEmbedding.narrow {S : Graph α} {T G : Graph β} {embs : List (Emb α β)} (h : Left T G embs) {emb : α → Option (List β)}
    (he : MinorEmbedding S T emb) (hSwf : S.WF) (hfree : ∀ x ∈ S.nodes, ∀ c, emb x = some c → ∀ q ∈ c, ∀ e ∈ embs, q ∉ e.used) : MinorEmbedding S G emb where
  chain := he.chain
  nodes x hx c hc q hq := (h.nodes q).mpr ⟨he.nodes x hx c hc q hq, hfree x hx c hc q hq⟩
  linked x hx c hc a ha b hb := by
    have hr := he.linked x hx c hc a ha b hb
    have : ∀ b, ReflTransGen (fun p q => q ∈ c ∧ T.Adj p q) a b → b ∈ c ∧ ReflTransGen (fun p q => q ∈ c ∧ G.Adj p q) a b := by
      intro b hb
      induction hb with
      | refl => exact ⟨ha, .refl⟩
      | tail _ hpq ih => exact ⟨hpq.1, ih.2.tail ⟨hpq.1, (h.adj _ _).mpr ⟨hpq.2, hfree x hx c hc _ ih.1, hfree x hx c hc _ hpq.1⟩⟩⟩
    exact (this b hr).2
  disjoint := he.disjoint
  edges x y hxy hne c d hc hd := by
    obtain ⟨p, hp, q, hq, hpq⟩ := he.edges x y hxy hne c d hc hd
    have hxy' : x ∈ S.nodes ∧ y ∈ S.nodes := hxy.elim (fun h => hSwf.2 _ h) fun h => (hSwf.2 _ h).symm
    exact ⟨p, hp, q, hq, (h.adj p q).mpr ⟨hpq, hfree x hxy'.1 c hc p hp, hfree y hxy'.2 d hd q hq⟩⟩

omit [DecidableEq β] [DecidableEq τ] in
theorem lookup_map_val {f : Val τ → Val β} (e : Emb α τ) (x : α) : List.lookup x (e.map fun kv => (kv.1, f kv.2)) = (e.lookup x).map f := by
  induction e with
  | nil => rfl
  | cons kv e ih =>
    rw [List.map_cons, List.lookup_cons, List.lookup_cons]
    cases x == kv.1
    · exact ih
    · rfl

omit [DecidableEq β] [DecidableEq τ] in
/-- The chains of a mapped proposal. -/
theorem chains_mapped {iter : Bool} {f : τ → β} {e : Emb α τ} (hk : ∀ kv ∈ e, kv.2.isChain = iter) : (e.mapped iter f).chains iter = carried f (e.chains iter) := by
  funext x
  unfold Emb.chains Emb.mapped carried
  rw [lookup_map_val]
  dsimp only
  cases hl : e.lookup x with
  | none => rfl
  | some v =>
    have hm : ∃ k, (k, v) ∈ e := by
      clear hk
      induction e with
      | nil => cases hl
      | cons kv e ih =>
        rw [List.lookup_cons] at hl
        cases hx : x == kv.1
        · rw [hx] at hl
          obtain ⟨k, hk⟩ := ih hl
          exact ⟨k, List.mem_cons_of_mem _ hk⟩
        · rw [hx] at hl
          injection hl with hl
          exact ⟨kv.1, by rw [← hl]; exact List.mem_cons_self⟩
    obtain ⟨k, hm⟩ := hm
    have := hk _ hm
    cases v <;> subst this <;> rfl

omit [DecidableEq β] in
/-- Chains are made of nodes used. -/
theorem chains_used {iter : Bool} {e : Emb α β} {x : α} {c : List β} (h : e.chains iter x = some c) : ∀ q ∈ c, q ∈ e.used := by
  intro q hq
  unfold Emb.chains at h
  cases hl : e.lookup x with
  | none => rw [hl] at h; cases h
  | some v =>
    rw [hl] at h
    have hm : ∃ k, (k, v) ∈ e := by
      clear h
      induction e with
      | nil => cases hl
      | cons kv e ih =>
        rw [List.lookup_cons] at hl
        cases hx : x == kv.1
        · rw [hx] at hl
          obtain ⟨k, hk⟩ := ih hl
          exact ⟨k, List.mem_cons_of_mem _ hk⟩
        · rw [hx] at hl
          injection hl with hl
          exact ⟨kv.1, by rw [← hl]; exact List.mem_cons_self⟩
    obtain ⟨k, hm⟩ := hm
    refine List.mem_flatMap.mpr ⟨_, hm, ?_⟩
    cases iter
    · cases v with
      | one n => injection h with h; rw [← h] at hq; exact hq
      | tup ns => injection h with h; rw [← h] at hq; cases hq
      | lst ns => injection h with h; rw [← h] at hq; cases hq
    · injection h with h; rw [← h] at hq; exact hq

/-- Embeddings of `S` in `T` none of which has a chain with a node used by another. -/
structure Filled (S : Graph α) (T : Graph β) (iter : Bool) (embs : List (Emb α β)) : Prop where
  emb : ∀ e ∈ embs, MinorEmbedding S T (e.chains iter)
  apart : embs.Pairwise fun e e' => ∀ x ∈ S.nodes, ∀ c, e'.chains iter x = some c → ∀ q ∈ c, q ∉ e.used

/-- The chains carried over by `f` meet one of the embeddings. -/
def Blocked (S : Graph α) (chains : α → Option (List τ)) (f : τ → β) (embs : List (Emb α β)) : Prop :=
  ∃ e ∈ embs, ∃ x ∈ S.nodes, ∃ c, chains x = some c ∧ ∃ q ∈ c, f q ∈ e.used

theorem subLoop_greedy {A : SubArgs α β τ} (hS : A.S.WF) (hne : A.S.nodes ≠ []) (hQ : ∀ l, (A.ordQ l).Perm l) (hX : ∀ l, (A.ordX l).Perm l)
    (hlate : ∀ j, A.lateAt j = false) {te : Emb α τ} (hk : ∀ kv ∈ te, kv.2.isChain = A.iter) {tile : Graph τ} {uf : Bool} {m : Int} {T0 : Graph β} :
    ∀ (fs : List (τ → β)) (j : Nat) (T : Graph β) (cur : Option (Graph β)) (embs : List (Emb α β)), Left T0 (cur.elim T id) embs → Filled A.S T0 A.iter embs →
    ∀ out, (subLoop A tile (some te) uf m fs j T cur embs).1 = .ok out → (∀ e ∈ embs, e ∈ out) ∧ Filled A.S T0 A.iter out ∧
      (m ≤ out.length ∨ ∀ f ∈ fs, MinorEmbedding A.S T0 (carried f (te.chains A.iter)) → Blocked A.S (te.chains A.iter) f out) := by
  intro fs
  induction fs with
  | nil =>
    intro j T cur embs hL hP out ho
    simp only [subLoop, Except.ok.injEq] at ho
    subst ho
    exact ⟨fun e he => he, hP, .inr (by simp)⟩
  | cons f fs ih =>
    intro j T cur embs hL hP out ho
    unfold subLoop at ho
    rw [hlate j, if_neg (by simp)] at ho
    unfold subSearch at ho
    dsimp only at ho
    have hvalid : isValid A.ordQ A.ordX ((te.mapped A.iter f).chains A.iter) A.S (cur.elim T id) = true ↔
        MinorEmbedding A.S (cur.elim T id) (carried f (te.chains A.iter)) := by
      rw [C27_is_valid hQ hX _ _ hS hL.wf, chains_mapped hk]
    by_cases hv : isValid A.ordQ A.ordX ((te.mapped A.iter f).chains A.iter) A.S (cur.elim T id) = true
    · rw [if_pos hv] at ho
      have hme := hvalid.mp hv
      have hP' : Filled A.S T0 A.iter (embs ++ [te.mapped A.iter f]) := by
        refine ⟨fun e he => ?_, ?_⟩
        · rcases List.mem_append.mp he with he | he
          · exact hP.emb e he
          · rw [List.mem_singleton.mp he, chains_mapped hk]
            exact hme.wider ⟨fun _ => Iff.rfl, fun _ _ => Iff.rfl⟩ hL.inside
        · rw [List.pairwise_append]
          refine ⟨hP.apart, List.pairwise_singleton _ _, fun e he e' he' x hx c hc q hq => ?_⟩
          rw [List.mem_singleton.mp he', chains_mapped hk] at hc
          exact ((hL.nodes q).mp (hme.nodes x hx c hc q hq)).2 e he
      split at ho
      · next hm =>
        simp only [Except.ok.injEq] at ho
        subst ho
        exact ⟨fun e he => List.mem_append_left _ he, hP', .inl hm⟩
      · have hrem : Emb.removal A.iter [te.mapped A.iter f].flatten = .ok (te.mapped A.iter f).used := by
          rw [removal_flatten (by intro e he; rw [List.mem_singleton.mp he]; exact mapped_kind hk)]
          simp
        rw [hrem] at ho
        dsimp only at ho
        have hL' := hL.remove (te.mapped A.iter f)
        have fin : (∀ e ∈ embs ++ [te.mapped A.iter f], e ∈ out) ∧ Filled A.S T0 A.iter out ∧
            (m ≤ out.length ∨ ∀ f ∈ fs, MinorEmbedding A.S T0 (carried f (te.chains A.iter)) → Blocked A.S (te.chains A.iter) f out) := by
          cases cur with
          | none => exact ih _ _ none _ hL' hP' out ho
          | some H => exact ih _ _ (some _) _ hL' hP' out ho
        refine ⟨fun e he => fin.1 e (List.mem_append_left _ he), fin.2.1, fin.2.2.imp_right fun h g hg hme' => ?_⟩
        rcases List.mem_cons.mp hg with rfl | hg
        · obtain ⟨x, hx⟩ := List.exists_mem_of_ne_nil _ hne
          obtain ⟨c, hc, hcne⟩ := hme.chain x hx
          have hc' := hc
          unfold carried at hc'
          obtain ⟨c0, hc0, rfl⟩ := Option.map_eq_some_iff.mp hc'
          obtain ⟨q, hq⟩ := List.exists_mem_of_ne_nil c0 (fun e => hcne (by rw [e]; rfl))
          refine ⟨_, fin.1 _ (List.mem_append_right _ List.mem_cons_self), x, hx, c0, hc0, q, hq, ?_⟩
          rw [← chains_mapped hk] at hc
          exact chains_used hc _ (List.mem_map_of_mem hq)
        · exact h g hg hme'
    · rw [if_neg hv] at ho
      simp only [List.append_nil] at ho
      split at ho
      · next hm =>
        simp only [Except.ok.injEq] at ho
        subst ho
        exact ⟨fun e he => he, hP, .inl hm⟩
      · have hrem : Emb.removal A.iter ([] : List (Emb α β)).flatten = .ok [] := rfl
        rw [hrem] at ho
        dsimp only at ho
        have fin : (∀ e ∈ embs, e ∈ out) ∧ Filled A.S T0 A.iter out ∧
            (m ≤ out.length ∨ ∀ f ∈ fs, MinorEmbedding A.S T0 (carried f (te.chains A.iter)) → Blocked A.S (te.chains A.iter) f out) := by
          cases cur with
          | none => rw [remove_nil] at ho; exact ih _ _ none _ hL hP out ho
          | some H => dsimp only at ho; rw [remove_nil] at ho; exact ih _ _ (some _) _ hL hP out ho
        refine ⟨fin.1, fin.2.1, fin.2.2.imp_right fun h g hg hme' => ?_⟩
        rcases List.mem_cons.mp hg with rfl | hg
        · by_contra hnb
          refine hv (hvalid.mpr (hme'.narrow hL hS fun x hx c hc q hq e he hqe => hnb ?_))
          unfold carried at hc
          obtain ⟨c0, hc0, rfl⟩ := Option.map_eq_some_iff.mp hc
          obtain ⟨q0, hq0, rfl⟩ := List.mem_map.mp hq
          exact ⟨e, fin.1 e he, x, hx, c0, hc0, q0, hq0, hqe⟩
        · exact h g hg hme'

omit [DecidableEq β] in
/-- Embeddings that are apart fit into the target. -/
theorem Filled.count {S : Graph α} {T : Graph β} {iter : Bool} {embs : List (Emb α β)} (hS : S.WF) (h : Filled S T iter embs) :
    embs.length * S.nodes.length ≤ T.nodes.length := by
  let rep : Emb α β → α → List β := fun e x => match e.chains iter x with | some (q :: _) => [q] | _ => []
  have hrep : ∀ e ∈ embs, ∀ x ∈ S.nodes, ∃ q c, rep e x = [q] ∧ e.chains iter x = some c ∧ q ∈ c := by
    intro e he x hx
    obtain ⟨c, hc, hne⟩ := (h.emb e he).chain x hx
    cases c with
    | nil => exact absurd rfl hne
    | cons q c => exact ⟨q, q :: c, by show (match e.chains iter x with | some (q :: _) => [q] | _ => []) = _; rw [hc], hc, List.mem_cons_self⟩
  have hone : ∀ e ∈ embs, (S.nodes.flatMap (rep e)).length = S.nodes.length ∧ (S.nodes.flatMap (rep e)).Nodup := by
    intro e he
    constructor
    · have : ∀ l : List α, (∀ x ∈ l, x ∈ S.nodes) → (l.flatMap (rep e)).length = l.length := by
        intro l
        induction l with
        | nil => intro _; rfl
        | cons x l ih =>
          intro hl
          obtain ⟨q, c, hq, -, -⟩ := hrep e he x (hl x List.mem_cons_self)
          rw [List.flatMap_cons, List.length_append, ih fun y hy => hl y (List.mem_cons_of_mem _ hy), hq, List.length_singleton, List.length_cons, Nat.add_comm]
      exact this _ fun x hx => hx
    · rw [List.nodup_flatMap]
      refine ⟨fun x hx => ?_, hS.1.imp_of_mem fun {x y} hx hy hxy q hqx hqy => ?_⟩
      · obtain ⟨q, c, hq, -, -⟩ := hrep e he x hx
        rw [hq]; exact List.nodup_singleton q
      · obtain ⟨q1, c1, e1, h1, m1⟩ := hrep e he x hx
        obtain ⟨q2, c2, e2, h2, m2⟩ := hrep e he y hy
        rw [e1] at hqx
        rw [e2] at hqy
        rw [List.mem_singleton.mp hqx] at hqy
        rw [List.mem_singleton.mp hqy] at m1
        exact (h.emb e he).disjoint x hx y hy hxy c1 c2 h1 h2 q2 m1 m2
  have hlen : (embs.flatMap fun e => S.nodes.flatMap (rep e)).length = embs.length * S.nodes.length := by
    have : ∀ l : List (Emb α β), (∀ e ∈ l, e ∈ embs) → (l.flatMap fun e => S.nodes.flatMap (rep e)).length = l.length * S.nodes.length := by
      intro l
      induction l with
      | nil => intro _; rw [List.length_nil, Nat.zero_mul]; rfl
      | cons e l ih =>
        intro hl
        rw [List.flatMap_cons, List.length_append, ih fun y hy => hl y (List.mem_cons_of_mem _ hy), (hone e (hl e List.mem_cons_self)).1, List.length_cons, Nat.succ_mul,
          Nat.add_comm]
    exact this _ fun e he => he
  have hnd : (embs.flatMap fun e => S.nodes.flatMap (rep e)).Nodup := by
    rw [List.nodup_flatMap]
    refine ⟨fun e he => (hone e he).2, h.apart.imp_of_mem fun {e e'} he he' hap q hq hq' => ?_⟩
    obtain ⟨x, hx, hqx⟩ := List.mem_flatMap.mp hq
    obtain ⟨y, hy, hqy⟩ := List.mem_flatMap.mp hq'
    obtain ⟨q1, c1, e1, h1, m1⟩ := hrep e he x hx
    obtain ⟨q2, c2, e2, h2, m2⟩ := hrep e' he' y hy
    rw [e1] at hqx
    rw [e2] at hqy
    rw [List.mem_singleton.mp hqx] at hqy
    rw [← List.mem_singleton.mp hqy] at m2
    exact hap y hy c2 h2 q1 m2 (chains_used h1 _ m1)
  have hsub : (embs.flatMap fun e => S.nodes.flatMap (rep e)) ⊆ T.nodes := by
    intro q hq
    obtain ⟨e, he, hq⟩ := List.mem_flatMap.mp hq
    obtain ⟨x, hx, hqx⟩ := List.mem_flatMap.mp hq
    obtain ⟨q1, c1, e1, h1, m1⟩ := hrep e he x hx
    rw [e1] at hqx
    rw [List.mem_singleton.mp hqx]
    exact (h.emb e he).nodes x hx c1 h1 q1 m1
  rw [← hlen]
  exact (List.subperm_of_subset hnd hsub).length_le

/-- The loop with the limit as it is computed. -/
theorem subLoop_complete {A : SubArgs α β τ} (hS : A.S.WF) (hT : A.T.WF) (hne : A.S.nodes ≠ []) (hQ : ∀ l, (A.ordQ l).Perm l) (hX : ∀ l, (A.ordX l).Perm l)
    (hlate : ∀ j, A.lateAt j = false) {te : Emb α τ} (hk : ∀ kv ∈ te, kv.2.isChain = A.iter) {tile : Graph τ} {uf : Bool} {embs : List (Emb α β)}
    (h : (subLoop A tile (some te) uf (A.limit.elim ((A.T.nodes.length / A.S.nodes.length : Nat) : Int) (min ((A.T.nodes.length / A.S.nodes.length : Nat) : Int)))
      (A.maps tile A.T) 0 A.T (if A.inPlace then none else some A.T) []).1 = .ok embs) (hlim : ∀ l, A.limit = some l → (embs.length : Int) < l) :
    ∀ f ∈ A.maps tile A.T, MinorEmbedding A.S A.T (carried f (te.chains A.iter)) → Blocked A.S (te.chains A.iter) f embs := by
  have hL : Left A.T ((if A.inPlace then none else some A.T : Option (Graph β)).elim A.T id) ([] : List (Emb α β)) := by
    have : (if A.inPlace then none else some A.T : Option (Graph β)).elim A.T id = A.T := by split <;> rfl
    rw [this]
    exact ⟨hT, by simp, by simp⟩
  obtain ⟨-, hP, hc⟩ := subLoop_greedy hS hne hQ hX hlate hk _ _ _ _ _ hL ⟨by simp, .nil⟩ embs h
  rcases hc with hc | hc
  · intro f _ hme
    by_contra hnb
    have hpos : 0 < A.S.nodes.length := List.length_pos_iff.mpr hne
    have hmost : A.T.nodes.length / A.S.nodes.length ≤ embs.length := by
      cases hl : A.limit with
      | none => rw [hl] at hc; exact Int.ofNat_le.mp hc
      | some l =>
        have := hlim l hl
        rw [hl] at hc
        change min _ l ≤ _ at hc
        omega
    have hP' : Filled A.S A.T A.iter (embs ++ [te.mapped A.iter f]) := by
      refine ⟨fun e he => ?_, ?_⟩
      · rcases List.mem_append.mp he with he | he
        · exact hP.emb e he
        · rw [List.mem_singleton.mp he, chains_mapped hk]; exact hme
      · rw [List.pairwise_append]
        refine ⟨hP.apart, List.pairwise_singleton _ _, fun e he e' he' x hx c hc q hq hqe => hnb ?_⟩
        rw [List.mem_singleton.mp he', chains_mapped hk] at hc
        unfold carried at hc
        obtain ⟨c0, hc0, rfl⟩ := Option.map_eq_some_iff.mp hc
        obtain ⟨q0, hq0, rfl⟩ := List.mem_map.mp hq
        exact ⟨e, he, x, hx, c0, hc0, q0, hq0, hqe⟩
    have := hP'.count hS
    rw [List.length_append, List.length_singleton] at this
    have h2 := Nat.lt_div_mul_add (a := A.T.nodes.length) hpos
    have h3 := Nat.mul_le_mul_right A.S.nodes.length hmost
    rw [Nat.succ_mul] at this
    omega
  · exact hc

end Py

/-- With an embedding for the tile, given or because the tile is the source graph itself: unless time runs out or the limit is reached, every place where the tile's embedding carried over by a
sublattice mapping is a minor embedding in the target is used or meets an embedding that was returned. -/
theorem C82_given {A : SubArgs α β τ} (hA : SubOK A) (hne : A.S.nodes ≠ []) (hst : A.start = true) {tile : Graph τ} (ht : A.tile = some tile) (hinf : A.infeasible = false)
    (hlate : ∀ j, A.lateAt j = false) (hu : A.useTile ≠ some false) {te : Emb α τ} (hte : A.tileEmb = some te ∨ A.tileEmb = none ∧ A.same = some te)
    {embs : List (Emb α β)} (h : (findSublattice A).1 = .ok embs) (hlim : ∀ l, A.limit = some l → (embs.length : Int) < l) :
    ∀ f ∈ A.maps tile A.T, MinorEmbedding A.S A.T (carried f (te.chains A.iter)) →
      ∃ e ∈ embs, ∃ x ∈ A.S.nodes, ∃ c, te.chains A.iter x = some c ∧ ∃ q ∈ c, f q ∈ e.used := by
  have htl : A.tiles = true := by
    unfold SubArgs.tiles
    cases hut : A.useTile with
    | none => rcases hte with h | ⟨-, h⟩ <;> simp [h]
    | some b => cases b with
      | false => exact absurd hut hu
      | true => rfl
  have hg : A.given = some te := by
    unfold SubArgs.given
    rw [if_pos htl]
    rcases hte with h | ⟨h1, h2⟩
    · rw [h]
    · rw [h1, h2]
  have hfi : A.filters = false := by unfold SubArgs.filters; rw [hg]; simp
  have hon : A.onTile tile = .ok (some (tile, some te)) := by
    unfold SubArgs.onTile
    rw [hfi, hg]
    simp
  unfold findSublattice at h
  rw [if_neg (by rw [hst]; simp), ht] at h
  dsimp only at h
  rw [if_neg (by rw [hinf]; simp)] at h
  split at h
  · cases h
  rw [hon] at h
  dsimp only at h
  rw [if_neg (by rw [List.length_eq_zero_iff]; exact hne)] at h
  exact subLoop_complete hA.srcWF hA.tgtWF hne hA.ordQ hA.ordX hlate (fun kv hkv => ((hA.given te (hte.imp_right And.right)).1 kv hkv).1) h hlim

/-- The same where the embedding for the tile is searched for: nothing is returned if none is found, otherwise the mappings are those of the part of the tile that is used by
the one that is found. -/
theorem C82_found {A : SubArgs α β τ} (hA : SubOK A) (hne : A.S.nodes ≠ []) (hst : A.start = true) {tile : Graph τ} (ht : A.tile = some tile) (hinf : A.infeasible = false)
    (hlate : ∀ j, A.lateAt j = false) (hu : A.useTile = some true) (hte : A.tileEmb = none) (hsame : A.same = none)
    {embs : List (Emb α β)} (h : (findSublattice A).1 = .ok embs) (hlim : ∀ l, A.limit = some l → (embs.length : Int) < l) :
    embs = [] ∧ (findMultiple A.envTile A.S tile A.freshTile (some 1) false false none).1 = .ok [] ∨
    ∃ te part, (∃ k G, te = A.envTile.embedder k A.S G) ∧ (∀ q, q ∈ part.nodes ↔ q ∈ tile.nodes ∧ q ∈ te.used) ∧
      (∀ p q, part.Adj p q ↔ tile.Adj p q ∧ p ∈ te.used ∧ q ∈ te.used) ∧
      ∀ f ∈ A.maps part A.T, MinorEmbedding A.S A.T (carried f (te.chains A.iter)) →
        ∃ e ∈ embs, ∃ x ∈ A.S.nodes, ∃ c, te.chains A.iter x = some c ∧ ∃ q ∈ c, f q ∈ e.used := by
  have htl : A.tiles = true := by unfold SubArgs.tiles; rw [hu]; rfl
  have hg : A.given = none := by unfold SubArgs.given; rw [if_pos htl, hte, hsame]
  unfold findSublattice at h
  rw [if_neg (by rw [hst]; simp), ht] at h
  dsimp only at h
  rw [if_neg (by rw [hinf]; simp)] at h
  split at h
  · cases h
  obtain ⟨ts, hts, hans⟩ := findMultiple_one A.envTile hne tile A.freshTile false false
  unfold SubArgs.onTile at h
  rw [hg, htl, if_pos (by simp), hts] at h
  cases ts with
  | nil =>
    simp only [Except.ok.injEq] at h
    exact .inl ⟨h.symm, hts⟩
  | cons te ts =>
    obtain ⟨k, G, hte'⟩ := hans te List.mem_cons_self
    have hk : ∀ kv ∈ te, kv.2.isChain = A.iter := fun kv hkv => ((hA.found k G).1 kv (hte' ▸ hkv)).1
    dsimp only at h
    rw [if_pos rfl, removal_used hk] at h
    dsimp only at h
    rw [if_neg (by rw [List.length_eq_zero_iff]; exact hne)] at h
    refine .inr ⟨te, tile.sub te.used, ⟨k, G, hte'⟩, ?_, ?_, subLoop_complete hA.srcWF hA.tgtWF hne hA.ordQ hA.ordX hlate hk h hlim⟩
    · intro q
      unfold Graph.sub
      simp
    · intro p q
      unfold Graph.sub Graph.Adj
      simp only [List.mem_filter, Bool.and_eq_true, decide_eq_true_eq]
      tauto

theorem Demo.tileArgs_ok : SubOK Demo.tileArgs := by
  refine ⟨Demo.edge2_wf, Demo.path6_wf, by decide, fun l => List.Perm.refl l, fun l => List.Perm.refl l, ?_, ?_⟩
  · rintro te (h | h)
    · cases h
      decide
    · cases h
  · intro k G
    exact ⟨by simp [Demo.tileArgs], by simp [Demo.tileArgs]⟩

/-- Along the path of six nodes, the place that starts at the second node is good and meets what was returned. -/
example : (findSublattice Demo.tileArgs).1.toOption = some [[(0, .tup [10, 11]), (1, .tup [12])], [(0, .tup [13, 14]), (1, .tup [15])]] ∧
    MinorEmbedding Demo.edge2 Demo.path6 (carried (· + 11) (Emb.chains true [(0, .tup [0, 1]), (1, .lst [2])])) ∧
    ∃ e ∈ ([[(0, .tup [10, 11]), (1, .tup [12])], [(0, .tup [13, 14]), (1, .tup [15])]] : List (Emb Nat Nat)), ∃ x ∈ Demo.edge2.nodes,
      ∃ c, Emb.chains true [(0, .tup [0, 1]), (1, .lst [2])] x = some c ∧ ∃ q ∈ c, q + 11 ∈ e.used := by
  have hrun : (findSublattice Demo.tileArgs).1.toOption = some [[(0, .tup [10, 11]), (1, .tup [12])], [(0, .tup [13, 14]), (1, .tup [15])]] := by decide +kernel
  have hme : MinorEmbedding Demo.edge2 Demo.path6 (carried (· + 11) (Emb.chains true [(0, .tup [0, 1]), (1, .lst [2])])) :=
    (C27_is_valid (ordQ := id) (ordX := id) (fun _ => List.Perm.refl _) (fun _ => List.Perm.refl _) _ _ Demo.edge2_wf Demo.path6_wf _).1 (by decide +kernel)
  refine ⟨hrun, hme, ?_⟩
  have hok : (findSublattice Demo.tileArgs).1 = .ok [[(0, .tup [10, 11]), (1, .tup [12])], [(0, .tup [13, 14]), (1, .tup [15])]] := by
    cases h : (findSublattice Demo.tileArgs).1 with
    | error x => rw [h] at hrun; cases hrun
    | ok o => rw [h] at hrun; injection hrun with hrun; rw [hrun]
  exact C82_given Demo.tileArgs_ok (by decide) rfl rfl rfl (fun _ => rfl) (by decide) (.inl rfl) hok (fun l h => by cases h) (· + 11)
    (show (fun x : Nat => x + 11) ∈ [(· + 10), (· + 11), (· + 12), (· + 13)] by simp) hme

/-- The embedding for the tile is found by the embedder. -/
example : (findSublattice (Demo.nodeArgs none (some true) false)).1.toOption = some [[(0, .one 10), (1, .one 11)], [(0, .one 12), (1, .one 13)]] ∧
    (Demo.nodeArgs none (some true) false).start = true ∧ (Demo.nodeArgs none (some true) false).tile = some Demo.edge2 ∧
    (Demo.nodeArgs none (some true) false).infeasible = false ∧ (∀ j, (Demo.nodeArgs none (some true) false).lateAt j = false) :=
  ⟨by decide +kernel, rfl, rfl, rfl, fun _ => rfl⟩

end MM
