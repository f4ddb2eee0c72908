import Verif.Cache.Mine
import Verif.Props.Regular
import Verif.Bus.FindInv

/-! What mining keeps. -/

namespace MM
namespace Cache
open Spec

theorem rawAt_some {c : Cliques} {k : Nat} {e : Emb} (h : c.raw[k]? = some e) : rawAt c k = .ok e := by
  simp only [rawAt, h]

theorem pickSizeBy_ok {better : Better} {c0 c1 : Cliques} (h0 : Sound c0) (h1 : Sound c1) (i : Nat) (hi : (dget c0.size i).isSome ∨ (dget c1.size i).isSome) :
    ∃ k : Nat × Bool, pickSizeBy better c0 c1 i = .ok k ∧ dget (if k.2 then c1 else c0).size i = some k.1 := by
  simp only [pickSizeBy]
  cases e0 : dget c0.size i with
  | none =>
    cases e1 : dget c1.size i with
    | none => rw [e0, e1] at hi; simp at hi
    | some k1 => exact ⟨(k1, true), rfl, e1⟩
  | some k0 =>
    obtain ⟨x0, g0, l0⟩ := h0.size i k0 e0
    cases e1 : dget c1.size i with
    | none => exact ⟨(k0, false), rfl, e0⟩
    | some k1 =>
      obtain ⟨x1, g1, l1⟩ := h1.size i k1 e1
      simp only
      split
      · exact ⟨(k1, true), rfl, e1⟩
      · simp only [rawAt_some g0, rawAt_some g1, bind, Except.bind]
        split
        · exact ⟨(k0, false), rfl, e0⟩
        · exact ⟨(k1, true), rfl, e1⟩

/-- Merging with any quality function. -/
theorem mergeBy_ok (quality : Option Better) {c0 c1 : Cliques} (h0 : Sound c0) (h1 : Sound c1) :
    ∃ c, mergeBy quality c0 c1 = .ok c ∧ Sound c ∧ (∀ n, (dget c.size n).isSome ↔ (dget c0.size n).isSome ∨ (dget c1.size n).isSome) ∧
      (∀ n v, dget c.size n = some v → ∃ k : Nat × Bool, dget (if k.2 then c1 else c0).size n = some k.1 ∧ c.raw[v]? = (if k.2 then c1 else c0).raw[k.1]? ∧
        ∀ better, quality = some better → pickSizeBy better c0 c1 n = .ok k) ∧ ∀ e ∈ c.raw, e ∈ c0.raw ∨ e ∈ c1.raw := by
  cases quality with
  | none =>
    obtain ⟨c, a1, a2, a3, a4, a5⟩ := merge_ok h0 h1
    refine ⟨c, a1, a2, a3, fun n v hv => ?_, a5⟩
    obtain ⟨k, b1, b2⟩ := a4 n v hv
    obtain ⟨k', d1, d2⟩ := pickSize_ok h0 h1 n ((a3 n).mp (by rw [hv]; rfl))
    rw [b1] at d1; cases d1
    exact ⟨k, d2, b2, fun _ h => by cases h⟩
  | some better =>
    obtain ⟨c, a1, a2, a3, a4, a5⟩ := mergeWith_ok h0 h1 (pickSizeBy_ok (better := better) h0 h1)
    refine ⟨c, a1, a2, a3, fun n v hv => ?_, a5⟩
    obtain ⟨k, b1, b2⟩ := a4 n v hv
    obtain ⟨k', d1, d2⟩ := pickSizeBy_ok (better := better) h0 h1 n ((a3 n).mp (by rw [hv]; rfl))
    rw [b1] at d1; cases d1
    exact ⟨k, d2, b2, fun b h => by cases h; exact b1⟩

/-- A cache without gaps whose embeddings are valid. -/
structure Good (nodes : List Nat) (edges : List (Nat × Nat)) (c : Cliques) : Prop where
  sound : Sound c
  valid : ∀ e ∈ c.raw, CliqueEmbedding nodes edges e
  gapless : ∀ n, (dget c.size n).isSome → ∀ m ≤ n, (dget c.size m).isSome
  full : ∀ e ∈ c.raw, (dget c.size e.length).isSome

variable {nodes : List Nat} {edges : List (Nat × Nat)}

theorem Good.make {embs : List Emb} (h : ∀ e ∈ embs, CliqueEmbedding nodes edges e) : Good nodes edges (make embs) := by
  have hi := make_ok embs
  refine ⟨hi.sound, fun e he => h e (by rw [hi.raw] at he; exact he), fun n hn m hm => ?_, fun e he => ?_⟩
  swap
  · rw [hi.raw] at he
    obtain ⟨j, hj⟩ := first_exists (embs := embs) (n := e.length) ⟨e, he, Nat.le_refl _⟩
    rw [(hi.size _ j).mpr hj]; rfl
  obtain ⟨k, hk⟩ := Option.isSome_iff_exists.mp hn
  obtain ⟨⟨e, h1, h2⟩, _⟩ := (hi.size n k).mp hk
  obtain ⟨j, hj⟩ := first_exists (embs := embs) (n := m) ⟨e, List.mem_of_getElem? h1, by omega⟩
  rw [(hi.size m j).mpr hj]; rfl

theorem Good.blank : Good nodes edges blank := Good.make (by
  intro e he
  rw [List.mem_singleton] at he; subst he
  exact ⟨by simp, .nil, .nil⟩)

theorem Good.insertCache {emb : Emb} (h : CliqueEmbedding nodes edges emb) : Good nodes edges (insertCache emb) := by
  refine Good.make fun e he => ?_
  obtain ⟨i, _, rfl⟩ := List.mem_map.mp he
  exact Bus.clique_sublist (Bus.clique_perm h (sortLen_perm emb)) List.filter_sublist

theorem Good.merge {quality : Option Better} {c0 c1 : Cliques} (h0 : Good nodes edges c0) (h1 : Good nodes edges c1) : ∃ c, mergeBy quality c0 c1 = .ok c ∧ Good nodes edges c := by
  obtain ⟨c, a1, a2, a3, _, a5⟩ := mergeBy_ok quality h0.sound h1.sound
  refine ⟨c, a1, a2, fun e he => ?_, fun n hn m hm => ?_, fun e he => ?_⟩
  · rcases a5 e he with h | h
    · exact h0.valid e h
    · exact h1.valid e h
  · rw [a3] at hn ⊢
    rcases hn with hn | hn
    · exact .inl (h0.gapless n hn m hm)
    · exact .inr (h1.gapless n hn m hm)
  · rw [a3]
    rcases a5 e he with h | h
    · exact .inl (h0.full e h)
    · exact .inr (h1.full e h)

/-- What the cache answers for `n` nodes: the chains. -/
def Answers (c : Cliques) (n : Nat) (e : Emb) : Prop := ∃ (k : Nat) (e' : Emb), dget c.size n = some k ∧ c.raw[k]? = some e' ∧ e = e'.take n

theorem insertCache_answers (emb : Emb) : Answers (insertCache emb) emb.length (sortLen emb) := by
  have h := make_ok ((List.range ((sortLen emb).foldl (fun m c => max m c.length) 0 + 1)).map fun i => (sortLen emb).filter fun c => c.length ≤ i)
  obtain ⟨_, _, h3, _⟩ := insertCache_offers emb
  have hm := (foldl_max (e := sortLen emb) 0).2
  obtain ⟨k, e, e1, e2, e3, _⟩ := h3 emb.length ((sortLen emb).foldl (fun m c => max m c.length) 0) (by
    rw [List.filter_eq_self.mpr]
    intro c hc
    simpa using hm c ((sortLen_perm emb).mem_iff.mpr hc))
  refine ⟨k, e, e1, e2, ?_⟩
  simp only [Cache.insertCache] at e2
  rw [h.raw, List.getElem?_map, Option.map_eq_some_iff] at e2
  obtain ⟨j, _, rfl⟩ := e2
  have hs : ((sortLen emb).filter fun c => c.length ≤ j).Sublist (sortLen emb) := List.filter_sublist
  have := hs.eq_of_length_le (by rw [sortLen_length]; exact e3)
  rw [this, ← sortLen_length emb, List.take_length]

theorem insertCache_nil_size {n : Nat} (hn : n ≠ 0) : dget (insertCache []).size n = none := by
  have : insertCache [] = blank := by decide
  rw [this]; exact blank_size hn

theorem foldlM_inv {σ α ε : Type} {f : σ → α → Except ε σ} {I : σ → Prop} : ∀ {l : List α} {s s' : σ}, (∀ a ∈ l, ∀ s s', I s → f s a = .ok s' → I s') → l.foldlM f s = .ok s' → I s → I s' := by
  intro l
  induction l with
  | nil => intro s s' _ h hs; cases h; exact hs
  | cons a l ih =>
    intro s s' hf h hs
    rw [List.foldlM_cons] at h
    cases e : f s a with
    | error x => rw [e] at h; cases h
    | ok s1 => rw [e] at h; exact ih (fun b hb => hf b (by simp [hb])) h (hf a (by simp) s s1 hs e)

/-- What one run of a loop brings about stays. -/
theorem foldlM_reach {σ α ε : Type} {f : σ → α → Except ε σ} {I J : σ → Prop} : ∀ {l : List α} {s s' : σ} {a : α}, a ∈ l → (∀ a ∈ l, ∀ s s', I s → f s a = .ok s' → I s') →
    (∀ s s', I s → f s a = .ok s' → J s') → (∀ b ∈ l, ∀ s s', I s → J s → f s b = .ok s' → J s') → l.foldlM f s = .ok s' → I s → J s' := by
  intro l
  induction l with
  | nil => intro s s' a h; cases h
  | cons b l ih =>
    intro s s' a ha hI hJ hk h hs
    rw [List.foldlM_cons] at h
    cases e : f s b with
    | error x => rw [e] at h; cases h
    | ok s1 =>
      rw [e] at h
      have h1 := hI b (by simp) s s1 hs e
      rcases List.mem_cons.mp ha with rfl | ha
      · exact (foldlM_inv (I := fun s => I s ∧ J s) (fun c hc s s' hs he => ⟨hI c (by simp [hc]) s s' hs.1 he, hk c (by simp [hc]) s s' hs.1 hs.2 he⟩) h ⟨h1, hJ s s1 hs e⟩).2
      · exact ih ha (fun c hc => hI c (by simp [hc])) hJ (fun c hc => hk c (by simp [hc])) h h1

/-- A loop that never fails. -/
theorem foldlM_ok {σ α ε : Type} {f : σ → α → Except ε σ} {I : σ → Prop} : ∀ {l : List α} {s : σ}, (∀ a ∈ l, ∀ s, I s → ∃ s', f s a = .ok s' ∧ I s') → I s → ∃ s', l.foldlM f s = .ok s' ∧ I s' := by
  intro l
  induction l with
  | nil => intro s _ hs; exact ⟨s, rfl, hs⟩
  | cons a l ih =>
    intro s hf hs
    obtain ⟨s1, h1, h2⟩ := hf a (by simp) s hs
    rw [List.foldlM_cons, h1]
    exact ih (fun b hb => hf b (by simp [hb])) h2

/-- A loop that fails fails in one of its runs. -/
theorem foldlM_error {σ α ε : Type} {f : σ → α → Except ε σ} {I : σ → Prop} : ∀ {l : List α} {s : σ} {x : ε}, (∀ a ∈ l, ∀ s s', I s → f s a = .ok s' → I s') → I s → l.foldlM f s = .error x → ∃ a ∈ l, ∃ s, I s ∧ f s a = .error x := by
  intro l
  induction l with
  | nil => intro s x _ _ h; cases h
  | cons a l ih =>
    intro s x hf hs h
    rw [List.foldlM_cons] at h
    cases e : f s a with
    | error y => rw [e] at h; cases h; exact ⟨a, by simp, s, hs, e⟩
    | ok s1 =>
      rw [e] at h
      obtain ⟨b, hb, s2, h2, h3⟩ := ih (fun b hb => hf b (by simp [hb])) (hf a (by simp) s s1 hs e) h
      exact ⟨b, by simp [hb], s2, h2, h3⟩

theorem lift_ok {α : Type} {m : Except Err α} {a : α} : lift m = .ok a ↔ m = .ok a := by
  cases m with
  | ok b => simp [lift]
  | error e => simp [lift]

theorem regularized_ok {M : Mining} (hm : MatcherOK M.matcher) {emb : Emb} (h : CliqueEmbedding M.nodes M.edges emb) (hne : emb ≠ []) :
    ∃ emb', M.regularized emb = .ok emb' ∧ CliqueEmbedding M.nodes M.edges emb' ∧ emb'.length = emb.length := by
  obtain ⟨emb', h1, h2, h3, _⟩ := C109_regularize hm h hne (Nat.lt_succ_self M.nodes.length)
  exact ⟨emb', by simp only [Mining.regularized, h1, lift], h2, h3⟩

theorem insertBy_ok {quality : Option Better} {emb : Emb} {c : Cliques} (h : CliqueEmbedding nodes edges emb) (hc : Good nodes edges c) : ∃ c', insertBy quality emb c = .ok c' ∧ Good nodes edges c' := by
  obtain ⟨c', h1, h2⟩ := Good.merge (quality := quality) (Good.insertCache h) hc
  exact ⟨c', by simp only [insertBy, h1, lift], h2⟩

/-- An answer for as many nodes as there are, or fewer. -/
theorem Good.find {c : Cliques} (h : Good nodes edges c) {big : Emb} (hb : largest c = .ok big) {n : Nat} (hn : n ≤ big.length) (h3 : 0 < n) :
    ∃ e, Cache.find c (List.range n) = .ok ((List.range n).zip e) ∧ n ≤ e.length ∧ CliqueEmbedding nodes edges e := by
  have hmem : big = [] ∨ big ∈ c.raw := by
    simp only [largest] at hb
    split at hb
    · cases hb; exact .inl rfl
    · split at hb
      · cases hb
      · rename_i key _
        simp only [rawAt] at hb
        split at hb
        · cases hb; rename_i h; exact .inr (List.mem_of_getElem? h)
        · cases hb
  rcases hmem with rfl | hmem
  · rw [List.length_nil] at hn; omega
  · obtain ⟨k, hk⟩ := Option.isSome_iff_exists.mp (h.gapless _ (h.full big hmem) n hn)
    obtain ⟨e, he, hl⟩ := h.sound.size n k hk
    exact ⟨e, find_zip (by rw [List.length_range]; exact hk) he, hl, h.valid e (List.mem_of_getElem? he)⟩

theorem Good.largest {c : Cliques} (h : Good nodes edges c) : ∃ big, largest c = .ok big := by
  simp only [Cache.largest]
  split
  · exact ⟨_, rfl⟩
  · rename_i m hm
    obtain ⟨k, hk⟩ := Option.isSome_iff_exists.mp (dget_isSome.mpr ((maxKey_ok.2 m hm).1))
    obtain ⟨e, he, _⟩ := h.sound.size m k hk
    exact ⟨e, by simp only [hk, rawAt_some he]⟩

theorem polished_ok {M : Mining} (hm : MatcherOK M.matcher) {ci c : Cliques} (hi : Good M.nodes M.edges ci) (hc : Good M.nodes M.edges c) {big : Emb} (hb : largest ci = .ok big) {n : Nat}
    (h3 : 3 ≤ n) (hn : n ≤ big.length) : ∃ c', M.polished ci c n = .ok c' ∧ Good M.nodes M.edges c' := by
  obtain ⟨e, h1, h2, h4⟩ := hi.find hb hn (by omega)
  have hz : ((List.range n).zip e).map Prod.snd = e.take n := by rw [snd_zip, List.length_range]
  obtain ⟨emb', g1, g2, _⟩ := regularized_ok hm (Bus.clique_sublist h4 (List.take_sublist n e)) (by
    intro h
    have := congrArg List.length h
    rw [List.length_take, List.length_nil] at this
    omega)
  obtain ⟨c', k1, k2⟩ := insertBy_ok (quality := M.quality) g2 hc
  exact ⟨c', by simp only [Mining.polished, h1, lift, bind, Except.bind, hz, g1, k1], k2⟩

/-- What is required of the parts around: the matching function does what it should, and all caches that are computed or read, and all embeddings that the heuristic finds, are valid. -/
structure Mining.OK (M : Mining) (files : Files) : Prop where
  matcher : MatcherOK M.matcher
  computed : ∀ s ∈ M.seeds, Good M.nodes M.edges (M.computed s)
  files : ∀ s ∈ M.seeds, ∀ c, dget files (M.ident s) = some c → Good M.nodes M.edges c
  heuristic : ∀ size embs, M.heuristic size = some embs → ∀ emb ∈ embs, emb = [] ∨ CliqueEmbedding M.nodes M.edges emb

theorem fetch_good {M : Mining} {files0 files : Files} (h : M.OK files0) {s : Nat} (hs : s ∈ M.seeds) (hf : ∀ s ∈ M.seeds, ∀ c, dget files (M.ident s) = some c → Good M.nodes M.edges c) :
    Good M.nodes M.edges (fetch files (M.ident s) (M.computed s)).2 ∧
      ∀ s' ∈ M.seeds, ∀ c, dget (fetch files (M.ident s) (M.computed s)).1 (M.ident s') = some c → Good M.nodes M.edges c := by
  simp only [fetch]
  cases e : dget files (M.ident s) with
  | some c => exact ⟨hf s hs c e, hf⟩
  | none =>
    refine ⟨h.computed s hs, fun s' hs' c hc => ?_⟩
    rw [dget_dset] at hc
    split at hc
    · cases hc; exact h.computed s hs
    · exact hf s' hs' c hc

/-- What holds between the runs. -/
def Mining.Inv (M : Mining) (st : Files × Cliques) : Prop := (∀ s ∈ M.seeds, ∀ c, dget st.1 (M.ident s) = some c → Good M.nodes M.edges c) ∧ Good M.nodes M.edges st.2

theorem polynomial_ok {M : Mining} {files0 : Files} (h : M.OK files0) {st : Files × Cliques} (hI : M.Inv st) {s : Nat} (hs : s ∈ M.seeds) :
    ∃ st', M.polynomial st s = .ok st' ∧ M.Inv st' := by
  obtain ⟨g1, g2⟩ := fetch_good h hs hI.1
  simp only [Mining.polynomial]
  generalize fetch st.1 (M.ident s) (M.computed s) = fc at g1 g2
  obtain ⟨files, ci⟩ := fc
  obtain ⟨c, k1, k2⟩ := Good.merge (quality := M.quality) g1 hI.2
  simp only [k1, lift, bind, Except.bind]
  split
  · obtain ⟨big, hb⟩ := g1.largest
    simp only [hb]
    obtain ⟨c', l1, l2⟩ := foldlM_ok (f := M.polished ci) (I := Good M.nodes M.edges) (l := List.range' 3 (big.length + 1 - 3)) (s := c) (fun n hn c hc => by
      rw [List.mem_range'_1] at hn
      exact polished_ok h.matcher g1 hc hb hn.1 (by omega)) k2
    exact ⟨(files, c'), by simp only [l1]; rfl, g2, l2⟩
  · exact ⟨(files, c), rfl, g2, k2⟩

theorem take_ok {M : Mining} (hm : MatcherOK M.matcher) {c : Cliques} (hc : Good M.nodes M.edges c) {emb : Emb} (h : emb = [] ∨ CliqueEmbedding M.nodes M.edges emb) :
    ∃ c', M.take c emb = .ok c' ∧ Good M.nodes M.edges c' := by
  simp only [Mining.take]
  split
  · exact ⟨c, rfl, hc⟩
  · rename_i hne
    rcases h with h | h
    · exact absurd h hne
    · obtain ⟨c1, h1, h2⟩ := insertBy_ok (quality := some M.heuristicQuality) h hc
      simp only [h1, bind, Except.bind]
      split
      · obtain ⟨emb1, g1, g2, _⟩ := regularized_ok hm h hne
        obtain ⟨c2, k1, k2⟩ := insertBy_ok (quality := some M.heuristicQuality) g2 h2
        exact ⟨c2, by simp only [g1, k1], k2⟩
      · exact ⟨c1, rfl, h2⟩

theorem heuristics_ok {M : Mining} {files : Files} (h : M.OK files) {c : Cliques} (hc : Good M.nodes M.edges c) (size : Nat) :
    (∃ c', M.heuristics c size = .ok c' ∧ Good M.nodes M.edges c') ∨ (M.heuristics c size = .error .heuristic ∧ M.heuristic size = none) := by
  simp only [Mining.heuristics]
  cases e : M.heuristic size with
  | none => exact .inr ⟨rfl, rfl⟩
  | some embs => exact .inl (foldlM_ok (fun emb he c hc => take_ok h.matcher hc (h.heuristic size embs e emb he)) hc)

end Cache
end MM
