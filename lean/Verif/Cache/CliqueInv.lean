import Verif.Cache.Clique
import Mathlib.Data.List.Basic

/-! The index of the clique cache. -/

namespace MM
namespace Cache

theorem sizeLoop_get {length : Nat} {B : Nat} : ∀ (m : Nat) (d : Dict Nat Nat), (∀ j, j ≤ m → ((dget d j).isSome ↔ j < B)) → (∀ j v, dget d j = some v → j < B → v ≠ length) →
    ∀ j, dget (sizeLoop length m d) j = if B ≤ j ∧ j ≤ m then some length else dget d j
  | 0, d, h, hv, j => by
    have h0 := h 0 (Nat.le_refl _)
    simp only [sizeLoop]
    cases hd : dget d 0 with
    | some v =>
      rw [hd] at h0
      have : 0 < B := h0.mp rfl
      rw [if_neg (by omega)]
    | none =>
      rw [hd] at h0
      have : ¬ 0 < B := fun h => by simpa using h0.mpr h
      simp only [dget_dset]
      by_cases hj : 0 = j
      · subst hj; simp; omega
      · rw [if_neg hj, if_neg (by omega)]
  | m + 1, d, h, hv, j => by
    have h0 := h (m + 1) (Nat.le_refl _)
    simp only [sizeLoop]
    cases hd : dget d (m + 1) with
    | some v =>
      rw [hd] at h0
      have hB : m + 1 < B := h0.mp rfl
      simp only [ne_eq]
      rw [if_pos (hv _ _ hd hB), if_neg (by omega)]
    | none =>
      rw [hd] at h0
      have hB : ¬ m + 1 < B := fun h => by simpa using h0.mpr h
      simp only
      rw [sizeLoop_get m]
      · rw [dget_dset]
        by_cases h1 : B ≤ j ∧ j ≤ m
        · rw [if_pos h1, if_pos (by omega)]
        · rw [if_neg h1]
          by_cases h2 : m + 1 = j
          · rw [if_pos h2, if_pos (by omega)]
          · rw [if_neg h2, if_neg (by omega)]
      · intro i hi
        rw [dget_dset, if_neg (by omega)]
        exact h i (by omega)
      · intro i v hi hiB
        rw [dget_dset] at hi
        split at hi
        · omega
        · exact hv i v hi hiB

theorem sizeLoop_nodup {length : Nat} : ∀ (m : Nat) (d : Dict Nat Nat), (d.map Prod.fst).Nodup → ((sizeLoop length m d).map Prod.fst).Nodup
  | 0, d, h => by
    simp only [sizeLoop]
    split
    · exact h
    · exact nodup_dset h _ _
  | m + 1, d, h => by
    simp only [sizeLoop]
    split
    · split
      · exact h
      · exact sizeLoop_nodup m d h
    · exact sizeLoop_nodup m _ (nodup_dset h _ _)

/-- `i` is the first number of an embedding with `n` chains or more. -/
def First (embs : List Emb) (n i : Nat) : Prop :=
  (∃ e, embs[i]? = some e ∧ n ≤ e.length) ∧ ∀ j < i, ∀ e, embs[j]? = some e → e.length < n

/-- What holds of the cache for the embeddings seen so far. -/
structure Indexed (embs : List Emb) (c : Cliques) : Prop where
  raw : c.raw = embs
  size : ∀ n i, dget c.size n = some i ↔ First embs n i
  nodup : (c.size.map Prod.fst).Nodup
  length : ∀ i j, dget c.length i = some j ↔ i = j ∧ i < embs.length
  lengths : (c.length.map Prod.fst).Nodup

theorem first_exists {embs : List Emb} {n : Nat} (h : ∃ e ∈ embs, n ≤ e.length) : ∃ i, First embs n i := by
  induction embs with
  | nil => obtain ⟨e, he, _⟩ := h; cases he
  | cons a embs ih =>
    by_cases ha : n ≤ a.length
    · exact ⟨0, ⟨a, rfl, ha⟩, by omega⟩
    · obtain ⟨e, he, hn⟩ := h
      rcases List.mem_cons.mp he with rfl | he
      · exact absurd hn ha
      · obtain ⟨i, ⟨e', h1, h2⟩, h3⟩ := ih ⟨e, he, hn⟩
        refine ⟨i + 1, ⟨e', h1, h2⟩, fun j hj e'' he'' => ?_⟩
        cases j with
        | zero => cases he''; omega
        | succ j => exact h3 j (by omega) e'' he''

theorem first_unique {embs : List Emb} {n i j : Nat} (hi : First embs n i) (hj : First embs n j) : i = j := by
  rcases Nat.lt_trichotomy i j with h | h | h
  · obtain ⟨⟨e, h1, h2⟩, _⟩ := hi
    have := hj.2 i h e h1; omega
  · exact h
  · obtain ⟨⟨e, h1, h2⟩, _⟩ := hj
    have := hi.2 j h e h1; omega

theorem makeLoop_ok {es done : List Emb} {M B : Nat} {c : Cliques} (h : Indexed done c) (hB : ∀ n, (∃ e ∈ done, n ≤ e.length) ↔ n < B) (hM : B ≤ M + 1) (hM' : B = 0 ∨ B = M + 1) (hM0 : B = 0 → M = 0) :
    Indexed (done ++ es) (makeLoop es done.length M c) := by
  induction es generalizing done M B c with
  | nil => rw [List.append_nil]; exact h
  | cons e es ih =>
    simp only [makeLoop]
    have hsome : ∀ n, (dget c.size n).isSome ↔ n < B := by
      intro n
      rw [← hB n, Option.isSome_iff_exists]
      constructor
      · rintro ⟨i, hi⟩
        obtain ⟨⟨e, h1, h2⟩, _⟩ := (h.size n i).mp hi
        exact ⟨e, List.mem_of_getElem? h1, h2⟩
      · intro hex
        obtain ⟨i, hi⟩ := first_exists hex
        exact ⟨i, (h.size n i).mpr hi⟩
    have hlt : ∀ n i, dget c.size n = some i → i < done.length := by
      intro n i hi
      obtain ⟨⟨e, h1, _⟩, _⟩ := (h.size n i).mp hi
      exact (List.getElem?_eq_some_iff.mp h1).1
    have hget := sizeLoop_get (length := done.length) (B := B) (max e.length M) c.size (fun j _ => hsome j) (fun j v hv _ => by have := hlt j v hv; omega)
    have hB' : ∀ n, (∃ e' ∈ done ++ [e], n ≤ e'.length) ↔ n < max e.length M + 1 := by
      intro n
      constructor
      · rintro ⟨e', he', hn⟩
        rcases List.mem_append.mp he' with he' | he'
        · have := (hB n).mp ⟨e', he', hn⟩; omega
        · rw [List.mem_singleton] at he'; subst he'; omega
      · intro hn
        by_cases hd : n < B
        · obtain ⟨e', he', hn'⟩ := (hB n).mpr hd
          exact ⟨e', List.mem_append_left _ he', hn'⟩
        · refine ⟨e, by simp, ?_⟩
          rcases hM' with h0 | h1
          · have := hM0 h0; omega
          · omega
    have hnew : Indexed (done ++ [e]) ⟨c.raw ++ [e], sizeLoop done.length (max e.length M) c.size, dset c.length done.length done.length⟩ := by
      refine ⟨by rw [h.raw], ?_, sizeLoop_nodup _ _ h.nodup, ?_, nodup_dset h.lengths _ _⟩
      · intro n i
        rw [hget]
        split
        · rename_i hn
          have hno : ∀ e' ∈ done, e'.length < n := by
            intro e' he'
            by_contra hc
            have := (hB n).mp ⟨e', he', by omega⟩
            omega
          have hf : First (done ++ [e]) n done.length := by
            refine ⟨⟨e, by simp, ?_⟩, ?_⟩
            · rcases hM' with h0 | h1
              · have := hM0 h0; omega
              · omega
            · intro j hj e' he'
              rw [List.getElem?_append_left hj] at he'
              exact hno e' (List.mem_of_getElem? he')
          constructor
          · intro hi; cases hi; exact hf
          · intro hi; rw [first_unique hi hf]
        · rename_i hn
          rw [h.size n i]
          constructor
          · rintro ⟨⟨e', h1, h2⟩, h3⟩
            have hi := (List.getElem?_eq_some_iff.mp h1).1
            refine ⟨⟨e', by rw [List.getElem?_append_left hi]; exact h1, h2⟩, fun j hj e'' he'' => ?_⟩
            rw [List.getElem?_append_left (by omega)] at he''
            exact h3 j hj e'' he''
          · rintro ⟨⟨e', h1, h2⟩, h3⟩
            by_cases hi : i < done.length
            · rw [List.getElem?_append_left hi] at h1
              refine ⟨⟨e', h1, h2⟩, fun j hj e'' he'' => h3 j hj e'' ?_⟩
              rw [List.getElem?_append_left (by omega)]; exact he''
            · exfalso
              have hex := (hB' n).mp ⟨e', List.mem_of_getElem? h1, h2⟩
              have hnB : n < B := by omega
              obtain ⟨e'', h5, h6⟩ := (hB n).mpr hnB
              obtain ⟨j, hj, hje⟩ := List.getElem_of_mem h5
              have := h3 j (by omega) e'' (by rw [List.getElem?_append_left hj, List.getElem?_eq_getElem hj, hje])
              omega
      · intro i j
        rw [dget_dset]
        split
        · rename_i hi
          subst hi
          simp only [Option.some.injEq, List.length_append, List.length_singleton]
          omega
        · rename_i hi
          rw [h.length i j]
          simp only [List.length_append, List.length_singleton]
          omega
    have := ih (done := done ++ [e]) (M := max e.length M) (B := max e.length M + 1) hnew hB' (Nat.le_refl _) (.inr rfl) (by omega)
    rw [List.append_assoc, List.length_append] at this
    exact this

theorem make_ok (embs : List Emb) : Indexed embs (make embs) := by
  have := makeLoop_ok (es := embs) (done := []) (M := 0) (B := 0) (c := ⟨[], [], []⟩) ⟨rfl, by simp [dget, First], by simp, by simp [dget], by simp⟩ (by simp) (by omega) (.inl rfl) (fun _ => rfl)
  simpa [make] using this

theorem maxKey_ok {d : Dict Nat Nat} : (maxKey d = none ↔ d = []) ∧ ∀ m, maxKey d = some m → m ∈ d.map Prod.fst ∧ ∀ k ∈ d.map Prod.fst, k ≤ m := by
  have key : ∀ (l : List Nat) (a : Option Nat), let r := l.foldl maxStep a
      (r = none ↔ l = [] ∧ a = none) ∧ ∀ m, r = some m → ((m ∈ l ∨ a = some m) ∧ (∀ k ∈ l, k ≤ m) ∧ ∀ k, a = some k → k ≤ m) := by
    intro l
    induction l with
    | nil => intro a; exact ⟨by simp, fun m h => ⟨.inr h, by simp, fun k hk => by have h : a = some m := h; rw [hk] at h; cases h; exact Nat.le_refl _⟩⟩
    | cons b l ih =>
      intro a
      simp only [List.foldl_cons]
      obtain ⟨i1, i2⟩ := ih (maxStep a b)
      refine ⟨by rw [i1]; cases a <;> simp [maxStep], fun m hm => ?_⟩
      obtain ⟨h1, h2, h3⟩ := i2 m hm
      cases a with
      | none =>
        have h3 := h3 b rfl
        simp only [maxStep] at h1
        refine ⟨?_, ?_, by simp⟩
        · rcases h1 with h1 | h1
          · exact .inl (List.mem_cons_of_mem _ h1)
          · cases h1; exact .inl List.mem_cons_self
        · intro k hk
          rcases List.mem_cons.mp hk with rfl | hk
          · exact h3
          · exact h2 k hk
      | some a =>
        have h3 := h3 (max a b) rfl
        simp only [maxStep] at h1
        refine ⟨?_, ?_, by intro k hk; cases hk; omega⟩
        · rcases h1 with h1 | h1
          · exact .inl (List.mem_cons_of_mem _ h1)
          · cases h1
            rcases Nat.le_total a b with h | h
            · rw [Nat.max_eq_right h]; exact .inl List.mem_cons_self
            · rw [Nat.max_eq_left h]; exact .inr rfl
        · intro k hk
          rcases List.mem_cons.mp hk with rfl | hk
          · omega
          · exact h2 k hk
  obtain ⟨h1, h2⟩ := key (d.map Prod.fst) none
  refine ⟨by unfold maxKey; rw [h1]; simp, fun m hm => ?_⟩
  obtain ⟨a, b, _⟩ := h2 m hm
  exact ⟨by simpa using a, b⟩

end Cache
end MM
