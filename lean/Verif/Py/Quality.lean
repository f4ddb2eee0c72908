import Mathlib.Data.List.Basic
import Mathlib.Data.List.Count
import Mathlib.Data.List.Dedup

/-! Model of `miner.quality_key` (minorminer/_minorminer.pyx 625-679). -/

namespace MM
namespace Py

variable {α κ : Type} [DecidableEq α] [DecidableEq κ]

/-- `h[k] = 1 + h.get(k, start - 1)` on a dict, as the list of its items. -/
def bump (start : Nat) : List (κ × Nat) → κ → List (κ × Nat)
  | [], k => [(k, start)]
  | kn :: h, k => if kn.1 = k then (kn.1, 1 + kn.2) :: h else kn :: bump start h k

/-- `count_overlaps` (_minorminer.pyx 625-630): how often each qubit is used beyond the first time. -/
def countOverlaps (chains : List (List α)) : List (α × Nat) :=
  chains.foldl (fun o c => c.foldl (bump 0) o) []

/-- `a >= b` for tuples of two numbers. -/
def pairGe (a b : Nat × Nat) : Bool := decide (b.1 < a.1 ∨ a.1 = b.1 ∧ b.2 ≤ a.2)

/-- Insertion into a list sorted in descending order. -/
def insDesc (a : Nat × Nat) : List (Nat × Nat) → List (Nat × Nat)
  | [] => [a]
  | b :: l => if pairGe a b then a :: b :: l else b :: insDesc a l

/-- `sorted(l, reverse=True)`; items of a dict are distinct, so stability plays no role. -/
def sortDesc : List (Nat × Nat) → List (Nat × Nat)
  | [] => []
  | a :: l => insDesc a (sortDesc l)

/-- `histogram_key` (_minorminer.pyx 632-640). -/
def histogramKey (sizes : List Nat) : List Nat :=
  (sortDesc (sizes.foldl (fun h s => if s ≠ 0 then bump 1 h s else h) [])).flatMap fun t => [t.1, t.2]

/-- What `quality_key` returns: `(2,)` or `(state, O, L)`. -/
inductive Key where
  | nothing
  | key (state : Nat) (O L : List Nat)
  deriving DecidableEq, Repr

/-- `quality_key` (_minorminer.pyx 642-679); `emb` lists the items of the dict. -/
def qualityKey (emb : List (κ × List α)) (embedded : Bool) : Key :=
  if emb = [] then .nothing
  else
    let L := histogramKey (emb.map fun kc => kc.2.length)
    if embedded then .key 0 [] L
    else
      let O := histogramKey ((countOverlaps (emb.map Prod.snd)).map Prod.snd)
      if O ≠ [] then .key 1 O L else .key 0 O L

/-- `<` for Python lists of numbers. -/
def listLt : List Nat → List Nat → Bool
  | _, [] => false
  | [], _ :: _ => true
  | a :: l, b :: m => if a = b then listLt l m else decide (a < b)

/-- `<` for the tuples `quality_key` returns: the first entries that differ decide. -/
def Key.lt : Key → Key → Bool
  | .nothing, .nothing => false
  | .nothing, .key s _ _ => decide (2 < s)
  | .key s _ _, .nothing => decide (s < 2)
  | .key s O L, .key s' O' L' =>
    if s = s' then (if O = O' then listLt L L' else listLt O O') else decide (s < s')

end Py

/-! ### Specification -/

namespace Spec
namespace Py

/-- At the largest number counted differently, `m` counts fewer than `n`: "fewer of the largest". -/
def Lower (m n : Nat → Nat) : Prop := ∃ s, 0 < s ∧ m s < n s ∧ ∀ s', s < s' → m s' = n s'

variable {α κ : Type} [DecidableEq α]

/-- How many chains have length `s`. -/
def chainsOfLength (emb : List (κ × List α)) (s : Nat) : Nat := (emb.map fun kc => kc.2.length).count s

/-- How often a qubit occurs in the chains. -/
def uses (emb : List (κ × List α)) (q : α) : Nat := (emb.flatMap Prod.snd).count q

/-- How many qubits occur `s + 1` times, that is `s` times too often. -/
def overused (emb : List (κ × List α)) (s : Nat) : Nat :=
  (emb.flatMap Prod.snd).dedup.countP fun q => uses emb q = s + 1

/-- No qubit is used twice. -/
def NoOverlap (emb : List (κ × List α)) : Prop := ∀ q, uses emb q ≤ 1

end Py
end Spec

namespace Py

open Spec.Py

variable {α κ : Type} [DecidableEq α] [DecidableEq κ]

/-! ### Dicts that count -/

omit [DecidableEq α] in
theorem bump_spec (start : Nat) (h : List (κ × Nat)) (k : κ) (hn : (h.map Prod.fst).Nodup) :
    ((bump start h k).map Prod.fst).Nodup ∧
    ∀ x n, (x, n) ∈ bump start h k ↔ (x ≠ k ∧ (x, n) ∈ h) ∨
      (x = k ∧ ((∃ m, (k, m) ∈ h ∧ n = 1 + m) ∨ ((∀ m, (k, m) ∉ h) ∧ n = start))) := by
  induction h with
  | nil =>
    refine ⟨by simp [bump], ?_⟩
    intro x n
    simp [bump]
  | cons a h ih =>
    rw [List.map_cons, List.nodup_cons] at hn
    obtain ⟨i1, i2⟩ := ih hn.2
    obtain ⟨k', c⟩ := a
    have hk' : ∀ m, (k', m) ∉ h := fun m hm => hn.1 (List.mem_map.mpr ⟨_, hm, rfl⟩)
    unfold bump
    split
    · rename_i he
      dsimp only at he
      subst he
      refine ⟨by simpa using hn, ?_⟩
      intro x n
      simp only [List.mem_cons, Prod.mk.injEq]
      constructor
      · rintro (⟨rfl, rfl⟩ | h')
        · exact .inr ⟨rfl, .inl ⟨c, by simp, rfl⟩⟩
        · refine .inl ⟨?_, .inr h'⟩
          rintro rfl
          exact hk' _ h'
      · rintro (⟨h1, h2⟩ | ⟨rfl, ⟨m, h1, h2⟩ | ⟨h1, _⟩⟩)
        · rcases h2 with ⟨h2, _⟩ | h2
          · exact absurd h2 h1
          · exact .inr h2
        · rcases h1 with ⟨_, rfl⟩ | h1
          · exact .inl ⟨rfl, h2⟩
          · exact absurd h1 (hk' m)
        · exact absurd (by simp) (h1 c)
    · rename_i he
      dsimp only at he
      refine ⟨?_, ?_⟩
      · rw [List.map_cons, List.nodup_cons]
        refine ⟨?_, i1⟩
        intro hc
        obtain ⟨⟨y, n⟩, hy, rfl⟩ := List.mem_map.mp hc
        rcases (i2 _ n).mp hy with ⟨_, h2⟩ | ⟨h1, _⟩
        · exact hk' _ h2
        · exact he h1
      · intro x n
        rw [List.mem_cons, i2 x n]
        constructor
        · rintro (h' | ⟨h1, h2⟩ | ⟨rfl, ⟨m, h1, h2⟩ | ⟨h1, h2⟩⟩)
          · cases h'
            exact .inl ⟨he, by simp⟩
          · exact .inl ⟨h1, by simp [h2]⟩
          · exact .inr ⟨rfl, .inl ⟨m, by simp [h1], h2⟩⟩
          · refine .inr ⟨rfl, .inr ⟨?_, h2⟩⟩
            intro m hm
            rcases List.mem_cons.mp hm with hm | hm
            · cases hm; exact he rfl
            · exact h1 m hm
        · rintro (⟨h1, h2⟩ | ⟨rfl, ⟨m, h1, h2⟩ | ⟨h1, h2⟩⟩)
          · rcases List.mem_cons.mp h2 with h2 | h2
            · exact .inl h2
            · exact .inr (.inl ⟨h1, h2⟩)
          · rcases List.mem_cons.mp h1 with h1 | h1
            · cases h1; exact absurd rfl he
            · exact .inr (.inr ⟨rfl, .inl ⟨m, h1, h2⟩⟩)
          · exact .inr (.inr ⟨rfl, .inr ⟨fun m hm => h1 m (by simp [hm]), h2⟩⟩)

/-- The dict after counting the entries of `l`. -/
structure Counts (start : Nat) (l : List κ) (h : List (κ × Nat)) : Prop where
  nodup : (h.map Prod.fst).Nodup
  mem : ∀ x n, (x, n) ∈ h ↔ 0 < l.count x ∧ n + 1 = l.count x + start

omit [DecidableEq α] in
theorem Counts.bump {start : Nat} {l : List κ} {h : List (κ × Nat)} (hc : Counts start l h) (k : κ) :
    Counts start (l ++ [k]) (Py.bump start h k) := by
  obtain ⟨b1, b2⟩ := bump_spec start h k hc.nodup
  refine ⟨b1, ?_⟩
  intro x n
  rw [b2 x n, List.count_append, List.count_singleton]
  by_cases hx : x = k
  · subst hx
    simp only [ne_eq, not_true_eq_false, false_and, true_and, false_or, beq_self_eq_true, if_true]
    constructor
    · rintro (⟨m, h1, h2⟩ | ⟨h1, h2⟩)
      · have := (hc.mem _ _).mp h1
        omega
      · have : l.count x = 0 := by
          by_contra hp
          refine h1 (l.count x + start - 1) ((hc.mem _ _).mpr ?_)
          omega
        omega
    · rintro ⟨_, h2⟩
      by_cases hp : l.count x = 0
      · refine .inr ⟨?_, by omega⟩
        intro m hm
        have := (hc.mem _ _).mp hm
        omega
      · refine .inl ⟨l.count x + start - 1, (hc.mem _ _).mpr ?_, ?_⟩ <;> omega
  · have hk : (k == x) = false := by simp [Ne.symm hx]
    rw [hk]
    simp only [ne_eq, hx, not_false_eq_true, true_and, false_and, or_false]
    rw [hc.mem x n]
    simp

omit [DecidableEq α] in
theorem Counts.bumps {start : Nat} : ∀ (m l : List κ) {h : List (κ × Nat)}, Counts start l h → Counts start (l ++ m) (m.foldl (Py.bump start) h) := by
  intro m
  induction m with
  | nil => intro l h hc; simpa using hc
  | cons k m ih =>
    intro l h hc
    have := ih _ (hc.bump k)
    simpa using this

theorem countOverlaps_spec (chains : List (List α)) : Counts 0 chains.flatten (countOverlaps chains) := by
  unfold countOverlaps
  suffices h : ∀ (cs : List (List α)) (l : List α) (o : List (α × Nat)), Counts 0 l o →
      Counts 0 (l ++ cs.flatten) (cs.foldl (fun o c => c.foldl (Py.bump 0) o) o) by
    simpa using h chains [] [] ⟨by simp, by simp⟩
  intro cs
  induction cs with
  | nil => intro l o h; simpa using h
  | cons c cs ih =>
    intro l o h
    have := ih _ _ (h.bumps c l)
    simpa using this

/-! ### Sorting -/

theorem mem_insDesc (a b : Nat × Nat) (l : List (Nat × Nat)) : b ∈ insDesc a l ↔ b = a ∨ b ∈ l := by
  induction l with
  | nil => simp [insDesc]
  | cons c l ih =>
    unfold insDesc
    split
    · simp
    · rw [List.mem_cons, ih, List.mem_cons]
      tauto

theorem mem_sortDesc (b : Nat × Nat) (l : List (Nat × Nat)) : b ∈ sortDesc l ↔ b ∈ l := by
  induction l with
  | nil => simp [sortDesc]
  | cons a l ih => rw [sortDesc, mem_insDesc, ih, List.mem_cons]

theorem sortDesc_sorted (l : List (Nat × Nat)) (hn : (l.map Prod.fst).Nodup) :
    (sortDesc l).Pairwise fun a b => b.1 < a.1 := by
  induction l with
  | nil => exact .nil
  | cons a l ih =>
    rw [List.map_cons, List.nodup_cons] at hn
    have hs := ih hn.2
    have hne : ∀ b ∈ sortDesc l, b.1 ≠ a.1 := by
      intro b hb he
      exact hn.1 (he ▸ List.mem_map_of_mem ((mem_sortDesc b l).mp hb))
    rw [sortDesc]
    generalize sortDesc l = m at hs hne
    induction hs with
    | nil => simp [insDesc]
    | @cons b m h1 h2 ih2 =>
      unfold insDesc
      split
      · rename_i hge
        have hab : b.1 < a.1 := by
          have := hne b (by simp)
          unfold pairGe at hge
          have := of_decide_eq_true hge
          omega
        refine .cons ?_ (.cons h1 h2)
        intro c hc
        rcases List.mem_cons.mp hc with rfl | hc
        · exact hab
        · exact Nat.lt_trans (h1 c hc) hab
      · rename_i hge
        have hab : a.1 < b.1 := by
          have := hne b (by simp)
          unfold pairGe at hge
          have : ¬ _ := fun h => hge (decide_eq_true h)
          omega
        refine .cons ?_ (ih2 (fun c hc => hne c (by simp [hc])))
        intro c hc
        rcases (mem_insDesc a c m).mp hc with rfl | hc
        · exact hab
        · exact h1 c hc

/-- A list of sizes with their numbers, largest size first. -/
structure Hist (d : List (Nat × Nat)) (n : Nat → Nat) : Prop where
  sorted : d.Pairwise fun a b => b.1 < a.1
  mem : ∀ s c, (s, c) ∈ d ↔ 0 < s ∧ 0 < c ∧ c = n s

theorem histogram_spec (sizes : List Nat) : ∃ d, Hist d (fun s => sizes.count s) ∧ histogramKey sizes = d.flatMap fun t => [t.1, t.2] := by
  refine ⟨_, ⟨?_, ?_⟩, rfl⟩
  all_goals
    have hf : sizes.foldl (fun h s => if s ≠ 0 then bump 1 h s else h) [] = (sizes.filter (· ≠ 0)).foldl (bump 1) [] := by
      suffices h : ∀ o : List (Nat × Nat), sizes.foldl (fun h s => if s ≠ 0 then bump 1 h s else h) o = (sizes.filter (· ≠ 0)).foldl (bump 1) o from h []
      induction sizes with
      | nil => intro o; rfl
      | cons s l ih =>
        intro o
        rw [List.foldl_cons, ih]
        by_cases hs : s = 0 <;> simp [hs]
    have hc : Counts 1 ([] ++ sizes.filter (· ≠ 0)) ((sizes.filter (· ≠ 0)).foldl (bump 1) []) :=
      Counts.bumps _ _ ⟨by simp, by simp⟩
    rw [List.nil_append] at hc
    rw [hf]
  · exact sortDesc_sorted _ hc.nodup
  · intro s c
    rw [mem_sortDesc, hc.mem]
    by_cases hs : s = 0
    · subst hs
      have : (sizes.filter (· ≠ 0)).count 0 = 0 := by
        rw [List.count_eq_zero]
        simp
      rw [this]
      simp
    · have : (sizes.filter (· ≠ 0)).count s = sizes.count s := by
        rw [List.count_filter]
        simpa using hs
      rw [this]
      omega

theorem Hist.tail {s c : Nat} {d : List (Nat × Nat)} {n : Nat → Nat} (h : Hist ((s, c) :: d) n) :
    Hist d (fun x => if x = s then 0 else n x) := by
  obtain ⟨h1, h2⟩ := List.pairwise_cons.mp h.sorted
  refine ⟨h2, ?_⟩
  intro x y
  have hx := h.mem x y
  rw [List.mem_cons] at hx
  by_cases he : x = s
  · subst he
    constructor
    · intro hm; have := h1 _ hm; simp at this
    · rw [if_pos rfl]; omega
  · rw [if_neg he, ← hx]
    simp [he]

theorem Hist.head {s c : Nat} {d : List (Nat × Nat)} {n : Nat → Nat} (h : Hist ((s, c) :: d) n) :
    0 < s ∧ 0 < c ∧ n s = c ∧ ∀ x, s < x → n x = 0 := by
  obtain ⟨h1, _⟩ := List.pairwise_cons.mp h.sorted
  obtain ⟨a, b, e⟩ := (h.mem s c).mp (by simp)
  refine ⟨a, b, e.symm, ?_⟩
  intro x hx
  by_contra hn
  have hm := (h.mem x (n x)).mpr ⟨by omega, by omega, rfl⟩
  rcases List.mem_cons.mp hm with hm | hm
  · cases hm; omega
  · have := h1 _ hm; dsimp only at this; omega

theorem Hist.nil_zero {n : Nat → Nat} (h : Hist [] n) : ∀ s, 0 < s → n s = 0 := by
  intro s hs
  by_contra hn
  have := (h.mem s (n s)).mpr ⟨hs, by omega, rfl⟩
  cases this

theorem Hist.lt_iff : ∀ {d e : List (Nat × Nat)} {m n : Nat → Nat}, Hist d m → Hist e n →
    (listLt (d.flatMap fun t => [t.1, t.2]) (e.flatMap fun t => [t.1, t.2]) = true ↔ Lower m n) := by
  intro d
  induction d with
  | nil =>
    intro e m n hd he
    have h0 := hd.nil_zero
    cases e with
    | nil =>
      have h1 := he.nil_zero
      simp only [List.flatMap_nil, listLt, Bool.false_eq_true, false_iff]
      rintro ⟨s, hs, hlt, _⟩
      rw [h1 s hs] at hlt
      omega
    | cons b e =>
      obtain ⟨s, c⟩ := b
      obtain ⟨k1, k2, k3, k4⟩ := he.head
      simp only [List.flatMap_nil, List.flatMap_cons, List.cons_append, listLt, true_iff]
      exact ⟨s, k1, by rw [h0 s k1, k3]; exact k2, fun s' hs' => by rw [h0 s' (by omega), k4 s' hs']⟩
  | cons a d ih =>
    intro e m n hd he
    obtain ⟨s, c⟩ := a
    obtain ⟨j1, j2, j3, j4⟩ := hd.head
    cases e with
    | nil =>
      have h1 := he.nil_zero
      simp only [List.flatMap_nil, List.flatMap_cons, List.cons_append, listLt, Bool.false_eq_true, false_iff]
      rintro ⟨x, hx, hlt, _⟩
      rw [h1 x hx] at hlt
      omega
    | cons b e =>
      obtain ⟨s', c'⟩ := b
      obtain ⟨k1, k2, k3, k4⟩ := he.head
      simp only [List.flatMap_cons, List.cons_append, List.nil_append, listLt]
      by_cases hss : s = s'
      · subst hss
        rw [if_pos rfl]
        by_cases hcc : c = c'
        · subst hcc
          rw [if_pos rfl, ih hd.tail he.tail]
          constructor
          · rintro ⟨x, hx, hlt, hup⟩
            dsimp only at hlt hup
            by_cases hxs : x = s
            · rw [if_pos hxs, if_pos hxs] at hlt; omega
            · rw [if_neg hxs, if_neg hxs] at hlt
              refine ⟨x, hx, hlt, ?_⟩
              intro y hy
              have := hup y hy
              by_cases hys : y = s
              · rw [hys, j3, k3]
              · rwa [if_neg hys, if_neg hys] at this
          · rintro ⟨x, hx, hlt, hup⟩
            have hxs : x ≠ s := by rintro rfl; omega
            refine ⟨x, hx, by dsimp only; rwa [if_neg hxs, if_neg hxs], ?_⟩
            intro y hy
            dsimp only
            rw [hup y hy]
        · rw [if_neg hcc, decide_eq_true_iff]
          constructor
          · intro hlt
            exact ⟨s, j1, by omega, fun y hy => by rw [j4 y hy, k4 y hy]⟩
          · rintro ⟨x, hx, hlt, hup⟩
            rcases Nat.lt_trichotomy x s with h | h | h
            · have := hup s h; omega
            · subst h; omega
            · rw [k4 x h] at hlt; omega
      · rw [if_neg hss, decide_eq_true_iff]
        constructor
        · intro hlt
          exact ⟨s', k1, by rw [j4 s' hlt]; omega, fun y hy => by rw [k4 y hy, j4 y (by omega)]⟩
        · rintro ⟨x, hx, hlt, hup⟩
          by_contra hge
          by_cases hxs : s' < x
          · rw [k4 x hxs] at hlt; omega
          · have := hup s (by omega)
            rw [k4 s (by omega)] at this
            omega

theorem Hist.eq_iff : ∀ {d e : List (Nat × Nat)} {m n : Nat → Nat}, Hist d m → Hist e n →
    (d.flatMap (fun t => [t.1, t.2]) = e.flatMap (fun t => [t.1, t.2]) ↔ ∀ s, 0 < s → m s = n s) := by
  intro d
  induction d with
  | nil =>
    intro e m n hd he
    have h0 := hd.nil_zero
    cases e with
    | nil =>
      have h1 := he.nil_zero
      simp only [List.flatMap_nil, true_iff]
      intro s hs
      rw [h0 s hs, h1 s hs]
    | cons b e =>
      obtain ⟨s, c⟩ := b
      obtain ⟨k1, k2, k3, k4⟩ := he.head
      simp only [List.flatMap_nil, List.flatMap_cons, List.cons_append]
      constructor
      · intro h; cases h
      · intro h
        have := h s k1
        rw [h0 s k1] at this
        omega
  | cons a d ih =>
    intro e m n hd he
    obtain ⟨s, c⟩ := a
    obtain ⟨j1, j2, j3, j4⟩ := hd.head
    cases e with
    | nil =>
      have h1 := he.nil_zero
      simp only [List.flatMap_nil, List.flatMap_cons, List.cons_append]
      constructor
      · intro h; cases h
      · intro h
        have := h s j1
        rw [h1 s j1] at this
        omega
    | cons b e =>
      obtain ⟨s', c'⟩ := b
      obtain ⟨k1, k2, k3, k4⟩ := he.head
      simp only [List.flatMap_cons, List.cons_append, List.nil_append, List.cons.injEq]
      rw [ih hd.tail he.tail]
      constructor
      · rintro ⟨rfl, rfl, h⟩ x hx
        have := h x hx
        by_cases hxs : x = s
        · rw [hxs, j3, k3]
        · rwa [if_neg hxs, if_neg hxs] at this
      · intro h
        have hss : s = s' := by
          rcases Nat.lt_trichotomy s s' with hl | hl | hl
          · have := h s' k1; rw [j4 s' hl] at this; omega
          · exact hl
          · have := h s j1; rw [k4 s hl] at this; omega
        subst hss
        have := h s j1
        refine ⟨rfl, by omega, ?_⟩
        intro x hx
        rw [h x hx]

/-- The histogram of overlaps. -/
theorem overlap_hist (emb : List (κ × List α)) : ∃ d, Hist d (overused emb) ∧
    histogramKey ((countOverlaps (emb.map Prod.snd)).map Prod.snd) = d.flatMap fun t => [t.1, t.2] := by
  obtain ⟨d, h1, h2⟩ := histogram_spec ((countOverlaps (emb.map Prod.snd)).map Prod.snd)
  have hc := countOverlaps_spec (emb.map Prod.snd)
  rw [← List.flatMap_def] at hc
  refine ⟨d, ⟨h1.sorted, ?_⟩, h2⟩
  intro s c
  rw [h1.mem s c]
  suffices h : ((countOverlaps (emb.map Prod.snd)).map Prod.snd).count s = overused emb s by rw [h]
  have hperm : ((countOverlaps (emb.map Prod.snd)).map Prod.fst).Perm (emb.flatMap Prod.snd).dedup := by
    rw [List.perm_ext_iff_of_nodup hc.nodup (List.nodup_dedup _)]
    intro q
    rw [List.mem_dedup, ← List.count_pos_iff (l := emb.flatMap Prod.snd)]
    constructor
    · intro hq
      obtain ⟨⟨q', n⟩, hm, rfl⟩ := List.mem_map.mp hq
      exact ((hc.mem _ _).mp hm).1
    · intro hq
      exact List.mem_map.mpr ⟨(q, List.count q (emb.flatMap Prod.snd) - 1), (hc.mem _ _).mpr (by omega), rfl⟩
  unfold overused
  rw [← hperm.countP_eq, List.countP_map, List.count, List.countP_map]
  apply List.countP_congr
  rintro ⟨q, n⟩ hq
  have := (hc.mem _ _).mp hq
  unfold uses
  simp only [Function.comp_apply, beq_iff_eq, decide_eq_true_eq]
  omega

theorem Lower.irrefl (m : Nat → Nat) : ¬ Lower m m := by rintro ⟨s, _, h, _⟩; omega

end Py
end MM
