import Verif.Py.Diag

/-! What the loops of `diagnose_embedding` compute. -/

namespace MM
namespace Py

open Relation Spec.Py

variable {α β : Type} [DecidableEq α] [DecidableEq β]

theorem isConnected_sub {g : Graph β} (h : g.WF) {c : List β} (hne : c ≠ []) (hc : ∀ q ∈ c, q ∈ g.nodes) :
    (g.sub c).isConnected = true ↔ Linked g c := by
  have hm : ∀ a, a ∈ (g.sub c).nodes ↔ a ∈ c := by
    intro a
    simp only [Graph.sub, List.mem_filter, decide_eq_true_eq]
    exact ⟨fun x => x.2, fun x => ⟨hc a x, x⟩⟩
  have hne' : (g.sub c).nodes ≠ [] := by
    obtain ⟨a, ha⟩ := List.exists_mem_of_ne_nil c hne
    exact List.ne_nil_of_mem ((hm a).mpr ha)
  rw [Graph.isConnected_iff (h.sub c) hne']
  have hpath : ∀ a, a ∈ c → ∀ b, ReflTransGen (g.sub c).Adj a b ↔ ReflTransGen (fun x y => y ∈ c ∧ g.Adj x y) a b := by
    intro a ha b
    constructor
    · intro hr
      induction hr with
      | refl => exact .refl
      | tail _ hab ih =>
        have := (Graph.sub_adj g c _ _).mp hab
        exact ih.tail ⟨this.2.2, this.1⟩
    · intro hr
      have : ReflTransGen (g.sub c).Adj a b ∧ b ∈ c := by
        induction hr with
        | refl => exact ⟨.refl, ha⟩
        | tail _ hab ih => exact ⟨ih.1.tail ((Graph.sub_adj g c _ _).mpr ⟨hab.2, ih.2, hab.1⟩), hab.1⟩
      exact this.1
  constructor
  · intro hh a ha b hb
    exact (hpath a ha b).mp (hh a ((hm a).mpr ha) b ((hm b).mpr hb))
  · intro hh a ha b hb
    exact (hpath a ((hm a).mp ha) b).mpr (hh a ((hm a).mp ha) b ((hm b).mp hb))

/-- State inside the loop over the chain of `x`: `pre` is the part visited. -/
structure QInv (tgt : Graph β) (x : α) (s : DState α β) (pre : List β) (t : DState α β × Bool) : Prop where
  lab : ∀ q y, y ∈ t.1.labels q ↔ y ∈ s.labels q ∨ (y = x ∧ q ∈ pre ∧ q ∈ tgt.nodes)
  nodup : ∀ q, (t.1.labels q).Nodup
  ov : ∀ q, q ∈ t.1.overlaps ↔ 2 ≤ (t.1.labels q).length
  emb : t.1.embedded = s.embedded
  out : ∀ e, e ∈ t.1.out ↔ e ∈ s.out ∨ ∃ q ∈ pre, q ∉ tgt.nodes ∧ e = .invalidNode x q
  flag : t.2 = true ↔ ∀ q ∈ pre, q ∈ tgt.nodes

theorem QInv.step {tgt : Graph β} {x : α} {s : DState α β} {pre : List β} {t : DState α β × Bool}
    (I : QInv tgt x s pre t) (q : β) : QInv tgt x s (pre ++ [q]) (visitQubit tgt x t q) := by
  unfold visitQubit
  by_cases hq : q ∈ tgt.nodes
  · rw [if_neg (by simpa using hq)]
    have hout : ∀ e : Err α β, (e ∈ s.out ∨ ∃ p ∈ pre, p ∉ tgt.nodes ∧ e = .invalidNode x p) ↔
        (e ∈ s.out ∨ ∃ p ∈ pre ++ [q], p ∉ tgt.nodes ∧ e = .invalidNode x p) := by
      intro e
      constructor
      · rintro (h | ⟨p, hp, h⟩)
        · exact .inl h
        · exact .inr ⟨p, by simp [hp], h⟩
      · rintro (h | ⟨p, hp, h⟩)
        · exact .inl h
        · rcases List.mem_append.mp hp with hp | hp
          · exact .inr ⟨p, hp, h⟩
          · rw [List.mem_singleton] at hp
            exact absurd hq (hp ▸ h.1)
    have hflag : (∀ p ∈ pre, p ∈ tgt.nodes) ↔ ∀ p ∈ pre ++ [q], p ∈ tgt.nodes := by
      constructor
      · intro h p hp
        rcases List.mem_append.mp hp with hp | hp
        · exact h p hp
        · rw [List.mem_singleton] at hp; exact hp ▸ hq
      · intro h p hp
        exact h p (by simp [hp])
    split
    · rename_i h0
      refine ⟨?_, ?_, ?_, I.emb, fun e => (I.out e).trans (hout e), I.flag.trans hflag⟩
      · intro p y
        dsimp only
        by_cases hp : p = q
        · subst hp
          rw [if_pos rfl]
          have := I.lab p y
          rw [h0] at this
          have h1 : y ∉ s.labels p := fun h => by simpa using this.mpr (.inl h)
          simp [h1, hq]
        · rw [if_neg hp, I.lab p y]
          simp [hp]
      · intro p
        dsimp only
        split
        · simp
        · exact I.nodup p
      · intro p
        dsimp only
        rw [I.ov p]
        by_cases hp : p = q
        · subst hp; rw [if_pos rfl, h0]; simp
        · rw [if_neg hp]
    · rename_i h0
      split
      · rename_i hx
        refine ⟨?_, ?_, ?_, I.emb, fun e => (I.out e).trans (hout e), I.flag.trans hflag⟩
        · intro p y
          dsimp only
          by_cases hp : p = q
          · subst hp
            rw [if_pos rfl]
            have := I.lab p y
            simp only [List.mem_append, List.mem_singleton, this]
            constructor
            · rintro ((h | h) | h)
              · exact .inl h
              · exact .inr ⟨h.1, .inr trivial, hq⟩
              · exact .inr ⟨h, .inr trivial, hq⟩
            · rintro (h | h)
              · exact .inl (.inl h)
              · exact .inr h.1
          · rw [if_neg hp, I.lab p y]
            simp [hp]
        · intro p
          dsimp only
          split
          · exact List.nodup_append.mpr ⟨I.nodup q, by simp, by
              intro a ha b hb
              rw [List.mem_singleton] at hb
              rintro rfl
              exact hx (hb ▸ ha)⟩
          · exact I.nodup p
        · intro p
          dsimp only
          have hov : p ∈ (if q ∈ t.1.overlaps then t.1.overlaps else t.1.overlaps ++ [q]) ↔ p ∈ t.1.overlaps ∨ p = q := by
            split
            · rename_i h
              exact ⟨.inl, fun hh => hh.elim id (fun e => e ▸ h)⟩
            · simp
          rw [hov, I.ov p]
          by_cases hp : p = q
          · subst hp
            rw [if_pos rfl]
            have : 1 ≤ (t.1.labels p).length := List.length_pos_iff.mpr h0
            simp; omega
          · rw [if_neg hp]; simp [hp]
      · rename_i hx
        have hx : x ∈ t.1.labels q := by simpa using hx
        refine ⟨?_, I.nodup, I.ov, I.emb, fun e => (I.out e).trans (hout e), I.flag.trans hflag⟩
        intro p y
        rw [I.lab p y]
        constructor
        · rintro (h | h)
          · exact .inl h
          · exact .inr ⟨h.1, by simp [h.2.1], h.2.2⟩
        · rintro (h | ⟨h1, h2, h3⟩)
          · exact .inl h
          · rcases List.mem_append.mp h2 with h2 | h2
            · exact .inr ⟨h1, h2, h3⟩
            · rw [List.mem_singleton] at h2
              subst h2 h1
              exact (I.lab p y).mp hx
  · rw [if_pos hq]
    refine ⟨?_, I.nodup, I.ov, I.emb, ?_, ?_⟩
    · intro p y
      dsimp only
      rw [I.lab p y]
      constructor
      · rintro (h | h)
        · exact .inl h
        · exact .inr ⟨h.1, by simp [h.2.1], h.2.2⟩
      · rintro (h | ⟨h1, h2, h3⟩)
        · exact .inl h
        · rcases List.mem_append.mp h2 with h2 | h2
          · exact .inr ⟨h1, h2, h3⟩
          · rw [List.mem_singleton] at h2
            exact absurd h3 (h2 ▸ hq)
    · intro e
      dsimp only
      rw [List.mem_append, I.out e, List.mem_singleton]
      constructor
      · rintro ((h | ⟨p, hp, h⟩) | h)
        · exact .inl h
        · exact .inr ⟨p, by simp [hp], h⟩
        · exact .inr ⟨q, by simp, hq, h⟩
      · rintro (h | ⟨p, hp, h⟩)
        · exact .inl (.inl h)
        · rcases List.mem_append.mp hp with hp | hp
          · exact .inl (.inr ⟨p, hp, h⟩)
          · rw [List.mem_singleton] at hp
            subst hp
            exact .inr h.2
    · constructor
      · intro h; cases h
      · intro h; exact absurd (h q (by simp)) hq

/-- The errors the first loop reports for `x`. -/
def NodeErr (tgt : Graph β) (emb : α → Option (List β)) (x : α) : Err α β → Prop
  | .missingChain y => y = x ∧ (emb x = none ∨ emb x = some [])
  | .invalidNode y q => y = x ∧ q ∉ tgt.nodes ∧ ∃ c, emb x = some c ∧ q ∈ c
  | .disconnected y => y = x ∧ ∃ c, Placed tgt emb x c ∧ ¬ Linked tgt c
  | _ => False

/-- State of the loop over the source nodes. -/
structure NInv (tgt : Graph β) (emb : α → Option (List β)) (pre : List α) (s : DState α β) : Prop where
  lab : ∀ q y, y ∈ s.labels q ↔ y ∈ pre ∧ q ∈ tgt.nodes ∧ ∃ c, emb y = some c ∧ q ∈ c
  nodup : ∀ q, (s.labels q).Nodup
  ov : ∀ q, q ∈ s.overlaps ↔ 2 ≤ (s.labels q).length
  embd : ∀ y, y ∈ s.embedded ↔ y ∈ pre ∧ ∃ c, Placed tgt emb y c
  out : ∀ e, e ∈ s.out ↔ ∃ x ∈ pre, NodeErr tgt emb x e

theorem mem_snoc {γ : Type} {P : γ → Prop} {l : List γ} {a : γ} : (∃ x ∈ l ++ [a], P x) ↔ (∃ x ∈ l, P x) ∨ P a := by
  constructor
  · rintro ⟨x, hx, h⟩
    rcases List.mem_append.mp hx with hx | hx
    · exact .inl ⟨x, hx, h⟩
    · rw [List.mem_singleton] at hx; exact .inr (hx ▸ h)
  · rintro (⟨x, hx, h⟩ | h)
    · exact ⟨x, by simp [hx], h⟩
    · exact ⟨a, by simp, h⟩

/-- A node without chain. -/
theorem NInv.missing {tgt : Graph β} {emb : α → Option (List β)} {pre : List α} {s : DState α β}
    (I : NInv tgt emb pre s) {x : α} (hx : emb x = none ∨ emb x = some []) :
    NInv tgt emb (pre ++ [x]) { s with out := s.out ++ [.missingChain x] } := by
  have hno : ∀ c : List β, emb x = some c → c = [] := by
    intro c hc
    rcases hx with h | h
    · rw [h] at hc; cases hc
    · rw [h] at hc; cases hc; rfl
  refine ⟨?_, I.nodup, I.ov, ?_, ?_⟩
  · intro q y
    dsimp only
    rw [I.lab q y]
    constructor
    · rintro ⟨h1, h2⟩
      exact ⟨by simp [h1], h2⟩
    · rintro ⟨h1, h2, c, hc, hq⟩
      rcases List.mem_append.mp h1 with h1 | h1
      · exact ⟨h1, h2, c, hc, hq⟩
      · rw [List.mem_singleton] at h1
        rw [h1] at hc
        rw [hno c hc] at hq
        cases hq
  · intro y
    dsimp only
    rw [I.embd y]
    constructor
    · rintro ⟨h1, h2⟩
      exact ⟨by simp [h1], h2⟩
    · rintro ⟨h1, c, hc⟩
      rcases List.mem_append.mp h1 with h1 | h1
      · exact ⟨h1, c, hc⟩
      · rw [List.mem_singleton] at h1
        rw [h1] at hc
        exact absurd (hno c hc.1) hc.2.1
  · intro e
    dsimp only
    rw [List.mem_append, I.out e, mem_snoc, List.mem_singleton]
    refine or_congr Iff.rfl ⟨?_, ?_⟩
    · rintro rfl
      exact ⟨rfl, hx⟩
    · intro h
      cases e with
      | missingChain y => rw [h.1]
      | invalidNode y q =>
        obtain ⟨_, _, c, hc, hq⟩ := h
        rw [hno c hc] at hq
        cases hq
      | disconnected y =>
        obtain ⟨_, c, hc, _⟩ := h
        exact absurd (hno c hc.1) hc.2.1
      | _ => exact h.elim

theorem NInv.step {tgt : Graph β} (hT : tgt.WF) {emb : α → Option (List β)} {pre : List α} {s : DState α β}
    (I : NInv tgt emb pre s) (x : α) (hfresh : x ∉ pre) : NInv tgt emb (pre ++ [x]) (visitNode tgt emb s x) := by
  unfold visitNode
  cases hx : emb x with
  | none => exact I.missing (.inl hx)
  | some c =>
    dsimp only
    split
    · rename_i hc
      exact I.missing (.inr (hc ▸ hx))
    · rename_i hc
      have Q : QInv tgt x s c (c.foldl (visitQubit tgt x) (s, true)) := by
        have : ∀ (l pre : List β) (t : DState α β × Bool), QInv tgt x s pre t →
            QInv tgt x s (pre ++ l) (l.foldl (visitQubit tgt x) t) := by
          intro l
          induction l with
          | nil => intro pre t h; simpa using h
          | cons q l ih =>
            intro pre t h
            simpa using ih (pre ++ [q]) _ (h.step q)
        refine this c [] (s, true) ⟨?_, I.nodup, I.ov, rfl, ?_, by simp⟩
        · intro q y; simp
        · intro e; simp
      generalize c.foldl (visitQubit tgt x) (s, true) = r at Q
      have hlab : ∀ q y, y ∈ r.1.labels q ↔ y ∈ pre ++ [x] ∧ q ∈ tgt.nodes ∧ ∃ c, emb y = some c ∧ q ∈ c := by
        intro q y
        rw [Q.lab q y, I.lab q y]
        constructor
        · rintro (⟨h1, h2⟩ | ⟨h1, h2, h3⟩)
          · exact ⟨by simp [h1], h2⟩
          · exact ⟨by simp [h1], h3, c, by rw [h1, hx], h2⟩
        · rintro ⟨h1, h2, d, hd, hq⟩
          rcases List.mem_append.mp h1 with h1 | h1
          · exact .inl ⟨h1, h2, d, hd, hq⟩
          · rw [List.mem_singleton] at h1
            rw [h1, hx] at hd
            cases hd
            exact .inr ⟨h1, hq, h2⟩
      have hout : ∀ e, e ∈ r.1.out ↔ (∃ y ∈ pre, NodeErr tgt emb y e) ∨ ∃ q ∈ c, q ∉ tgt.nodes ∧ e = .invalidNode x q := by
        intro e
        rw [Q.out e, I.out e]
      have hinv : ∀ y q, NodeErr tgt emb x (.invalidNode y q) ↔ q ∈ c ∧ q ∉ tgt.nodes ∧ y = x := by
        intro y q
        constructor
        · rintro ⟨h1, h2, d, hd, hq⟩
          rw [hx] at hd
          cases hd
          exact ⟨hq, h2, h1⟩
        · rintro ⟨h1, h2, h3⟩
          exact ⟨h3, h2, c, hx, h1⟩
      have hmiss : ∀ y, ¬ NodeErr tgt emb x (.missingChain y) := by
        rintro y ⟨_, h | h⟩
        · rw [hx] at h; cases h
        · rw [hx] at h; cases h; exact hc rfl
      cases hr : r.2 with
      | false =>
        simp only [Bool.false_eq_true, if_false]
        have hbad : ¬ ∀ q ∈ c, q ∈ tgt.nodes := by
          intro h
          have := Q.flag.mpr h
          rw [hr] at this
          cases this
        refine ⟨hlab, Q.nodup, Q.ov, ?_, ?_⟩
        · intro y
          rw [Q.emb, I.embd y]
          constructor
          · rintro ⟨h1, h2⟩
            exact ⟨by simp [h1], h2⟩
          · rintro ⟨h1, d, hd⟩
            rcases List.mem_append.mp h1 with h1 | h1
            · exact ⟨h1, d, hd⟩
            · rw [List.mem_singleton] at h1
              have h2 := hd.1
              rw [h1, hx] at h2
              cases h2
              exact absurd hd.2.2 hbad
        · intro e
          rw [hout e, mem_snoc]
          refine or_congr Iff.rfl ?_
          cases e with
          | missingChain y => exact ⟨fun ⟨_, _, _, h⟩ => (by cases h), fun h => (hmiss y h).elim⟩
          | invalidNode y q =>
            rw [hinv]
            constructor
            · rintro ⟨p, hp, hn, h⟩
              cases h
              exact ⟨hp, hn, rfl⟩
            · rintro ⟨h1, h2, h3⟩
              exact ⟨q, h1, h2, by rw [h3]⟩
          | disconnected y =>
            refine ⟨fun ⟨_, _, _, h⟩ => (by cases h), ?_⟩
            rintro ⟨_, d, hd, _⟩
            have h2 := hd.1
            rw [hx] at h2
            cases h2
            exact absurd hd.2.2 hbad
          | overlap q y z => exact ⟨fun ⟨_, _, _, h⟩ => (by cases h), fun h => h.elim⟩
          | missingEdge y z => exact ⟨fun ⟨_, _, _, h⟩ => (by cases h), fun h => h.elim⟩
      | true =>
        simp only [if_true]
        have hall := Q.flag.mp hr
        have hpl : Placed tgt emb x c := ⟨hx, hc, hall⟩
        have hembd : ∀ y, y ∈ r.1.embedded ++ [x] ↔ y ∈ pre ++ [x] ∧ ∃ c, Placed tgt emb y c := by
          intro y
          rw [List.mem_append, List.mem_append, Q.emb, I.embd y, List.mem_singleton]
          constructor
          · rintro (h | h)
            · exact ⟨.inl h.1, h.2⟩
            · exact ⟨.inr h, c, h ▸ hpl⟩
          · rintro ⟨h | h, h2⟩
            · exact .inl ⟨h, h2⟩
            · exact .inr h
        have hnoinv : ∀ e : Err α β, ¬ ∃ q ∈ c, q ∉ tgt.nodes ∧ e = .invalidNode x q := by
          rintro e ⟨q, hq, hn, _⟩
          exact hn (hall q hq)
        have hdis : ∀ y, NodeErr tgt emb x (.disconnected y) ↔ y = x ∧ ¬ Linked tgt c := by
          intro y
          constructor
          · rintro ⟨h1, d, hd, hl⟩
            have h2 := hd.1
            rw [hx] at h2
            cases h2
            exact ⟨h1, hl⟩
          · rintro ⟨h1, h2⟩
            exact ⟨h1, c, hpl, h2⟩
        have hconn := isConnected_sub hT hc hall
        cases hcc : (tgt.sub c).isConnected with
        | true =>
          simp only [if_true]
          have hl := hconn.mp hcc
          refine ⟨hlab, Q.nodup, Q.ov, hembd, ?_⟩
          intro e
          dsimp only
          rw [hout e, mem_snoc]
          refine or_congr Iff.rfl ⟨fun h => (hnoinv e h).elim, ?_⟩
          intro h
          cases e with
          | missingChain y => exact (hmiss y h).elim
          | invalidNode y q => exact absurd (hall q ((hinv y q).mp h).1) ((hinv y q).mp h).2.1
          | disconnected y => exact absurd hl ((hdis y).mp h).2
          | _ => exact h.elim
        | false =>
          simp only [Bool.false_eq_true, if_false]
          have hl : ¬ Linked tgt c := by
            intro h
            have := hconn.mpr h
            rw [hcc] at this
            cases this
          refine ⟨hlab, Q.nodup, Q.ov, hembd, ?_⟩
          intro e
          dsimp only
          rw [List.mem_append, hout e, mem_snoc, List.mem_singleton, or_assoc]
          refine or_congr Iff.rfl ⟨?_, ?_⟩
          · rintro (h | h)
            · exact (hnoinv e h).elim
            · rw [h]; exact (hdis x).mpr ⟨rfl, hl⟩
          · intro h
            cases e with
            | missingChain y => exact (hmiss y h).elim
            | invalidNode y q => exact absurd (hall q ((hinv y q).mp h).1) ((hinv y q).mp h).2.1
            | disconnected y => exact .inr (by rw [((hdis y).mp h).1])
            | _ => exact h.elim

theorem NInv.all {tgt : Graph β} (hT : tgt.WF) (emb : α → Option (List β)) (nodes : List α) (hn : nodes.Nodup) :
    NInv tgt emb nodes (nodes.foldl (visitNode tgt emb) { labels := fun _ => [], embedded := [], overlaps := [], out := [] }) := by
  have : ∀ (l pre : List α) (s : DState α β), (pre ++ l).Nodup → NInv tgt emb pre s →
      NInv tgt emb (pre ++ l) (l.foldl (visitNode tgt emb) s) := by
    intro l
    induction l with
    | nil => intro pre s _ h; simpa using h
    | cons x l ih =>
      intro pre s hnd h
      have hx : x ∉ pre := by
        intro hc
        exact (List.nodup_append.mp hnd).2.2 x hc x (by simp) rfl
      have := ih (pre ++ [x]) _ (by simpa using hnd) (h.step hT x hx)
      simpa using this
  have := this nodes [] { labels := fun _ => [], embedded := [], overlaps := [], out := [] } (by simpa using hn)
    ⟨by simp, by simp, by simp, by simp, by simp⟩
  simpa using this

theorem yielded_iff {tgt : Graph β} {emb : α → Option (List β)} {nodes : List α} {s : DState α β}
    (I : NInv tgt emb nodes s) {x y : α} {c d : List β} (hx : x ∈ nodes) (hy : y ∈ nodes)
    (hc : Placed tgt emb x c) (hd : Placed tgt emb y d) : yielded tgt s.labels x y = true ↔ Joined tgt c d := by
  have hlx : ∀ q, x ∈ s.labels q ↔ q ∈ c := by
    intro q
    rw [I.lab q x]
    constructor
    · rintro ⟨_, _, e, he, hq⟩
      rw [hc.1] at he
      cases he
      exact hq
    · intro hq
      exact ⟨hx, hc.2.2 q hq, c, hc.1, hq⟩
  have hly : ∀ q, y ∈ s.labels q ↔ q ∈ d := by
    intro q
    rw [I.lab q y]
    constructor
    · rintro ⟨_, _, e, he, hq⟩
      rw [hd.1] at he
      cases he
      exact hq
    · intro hq
      exact ⟨hy, hd.2.2 q hq, d, hd.1, hq⟩
  unfold yielded
  rw [List.any_eq_true]
  constructor
  · rintro ⟨e, he, h⟩
    rw [List.mem_filter] at he
    rw [decide_eq_true_eq] at h
    simp only [hlx, hly] at h
    rcases h with h | h
    · exact ⟨e.1, h.1, e.2, h.2, .inl he.1⟩
    · exact ⟨e.2, h.2, e.1, h.1, .inr he.1⟩
  · rintro ⟨p, hp, q, hq, h⟩
    have h1 := (hlx p).mpr hp
    have h2 := (hly q).mpr hq
    rcases h with h | h
    · refine ⟨(p, q), ?_, ?_⟩
      · rw [List.mem_filter]
        exact ⟨h, by simp [List.ne_nil_of_mem h1, List.ne_nil_of_mem h2]⟩
      · rw [decide_eq_true_eq]; exact .inl ⟨h1, h2⟩
    · refine ⟨(q, p), ?_, ?_⟩
      · rw [List.mem_filter]
        exact ⟨h, by simp [List.ne_nil_of_mem h1, List.ne_nil_of_mem h2]⟩
      · rw [decide_eq_true_eq]; exact .inr ⟨h2, h1⟩

/-- What the generator yields, error by error. -/
theorem mem_diagnose {ordQ : List β → List β} {ordX : List α → List α} (hQ : ∀ l, (ordQ l).Perm l) (hX : ∀ l, (ordX l).Perm l)
    {src : Graph α} {tgt : Graph β} (hS : src.WF) (hT : tgt.WF) (emb : α → Option (List β)) (e : Err α β) :
    (e ∈ diagnose ordQ ordX emb src tgt → Defect src tgt emb e) ∧
    (Defect src tgt emb e → match e with
      | .overlap q _ _ => ∃ x y, Err.overlap q x y ∈ diagnose ordQ ordX emb src tgt
      | e => e ∈ diagnose ordQ ordX emb src tgt) := by
  have I := NInv.all hT emb src.nodes hS.nodup
  unfold diagnose
  generalize src.nodes.foldl (visitNode tgt emb) _ = s at I
  dsimp only
  have hov : ∀ e, e ∈ (ordQ s.overlaps).flatMap (overlapErrs ordX s.labels) ↔
      ∃ q r l, 2 ≤ (s.labels q).length ∧ ordX (s.labels q) = r :: l ∧ ∃ y ∈ l, e = .overlap q r y := by
    intro e
    rw [List.mem_flatMap]
    constructor
    · rintro ⟨q, hq, he⟩
      have hq := (I.ov q).mp ((hQ _).mem_iff.mp hq)
      unfold overlapErrs at he
      split at he
      · cases he
      · rename_i r l hl
        rw [List.mem_map] at he
        obtain ⟨y, hy, he⟩ := he
        exact ⟨q, r, l, hq, hl, y, hy, he.symm⟩
    · rintro ⟨q, r, l, hq, hl, y, hy, he⟩
      refine ⟨q, (hQ _).mem_iff.mpr ((I.ov q).mpr hq), ?_⟩
      unfold overlapErrs
      rw [hl]
      exact List.mem_map.mpr ⟨y, hy, he.symm⟩
  have hme : ∀ e, e ∈ ((src.edges.filter fun e =>
      decide (e.1 ≠ e.2 ∧ e.1 ∈ s.embedded ∧ e.2 ∈ s.embedded) && !yielded tgt s.labels e.1 e.2).map
      fun e => (Err.missingEdge e.1 e.2 : Err α β)) ↔ ∃ x y, e = .missingEdge x y ∧ Defect src tgt emb (.missingEdge x y) := by
    intro e
    rw [List.mem_map]
    constructor
    · rintro ⟨d, hd, rfl⟩
      rw [List.mem_filter] at hd
      simp only [Bool.and_eq_true, decide_eq_true_eq, Bool.not_eq_true'] at hd
      obtain ⟨hin, ⟨hne, h1, h2⟩, hy⟩ := hd
      obtain ⟨hn1, c1, hc1⟩ := (I.embd _).mp h1
      obtain ⟨hn2, c2, hc2⟩ := (I.embd _).mp h2
      refine ⟨d.1, d.2, rfl, hin, hne, c1, c2, hc1, hc2, ?_⟩
      intro hj
      have := (yielded_iff I hn1 hn2 hc1 hc2).mpr hj
      rw [hy] at this
      cases this
    · rintro ⟨x, y, rfl, hin, hne, c, d, hc, hd, hj⟩
      refine ⟨(x, y), ?_, rfl⟩
      have hx := (hS.ends _ hin).1
      have hy := (hS.ends _ hin).2
      rw [List.mem_filter]
      simp only [Bool.and_eq_true, decide_eq_true_eq, Bool.not_eq_true']
      refine ⟨hin, ⟨hne, (I.embd x).mpr ⟨hx, c, hc⟩, (I.embd y).mpr ⟨hy, d, hd⟩⟩, ?_⟩
      cases h : yielded tgt s.labels x y with
      | false => rfl
      | true => exact absurd ((yielded_iff I hx hy hc hd).mp h) hj
  constructor
  · intro he
    rw [List.mem_append, List.mem_append] at he
    rcases he with (he | he) | he
    · obtain ⟨x, hx, h⟩ := (I.out e).mp he
      cases e with
      | missingChain y => exact ⟨h.1 ▸ hx, h.1 ▸ h.2⟩
      | invalidNode y q => exact ⟨h.1 ▸ hx, h.2.1, h.1 ▸ h.2.2⟩
      | disconnected y => exact ⟨h.1 ▸ hx, h.1 ▸ h.2⟩
      | _ => exact h.elim
    · obtain ⟨q, r, l, hq, hl, y, hy, rfl⟩ := (hov e).mp he
      have hr := (I.lab q r).mp ((hX _).mem_iff.mp (by rw [hl]; simp))
      have hy' := (I.lab q y).mp ((hX _).mem_iff.mp (by rw [hl]; simp [hy]))
      obtain ⟨h1, hqt, c, hc, hqc⟩ := hr
      obtain ⟨h2, _, d, hd, hqd⟩ := hy'
      refine ⟨h1, h2, ?_, hqt, c, d, hc, hd, hqc, hqd⟩
      have hnd := ((hX (s.labels q)).nodup_iff).mpr (I.nodup q)
      rw [hl, List.nodup_cons] at hnd
      rintro rfl
      exact hnd.1 hy
    · obtain ⟨x, y, rfl, h⟩ := (hme e).mp he
      exact h
  · intro h
    cases e with
    | missingChain y =>
      exact List.mem_append_left _ (List.mem_append_left _ ((I.out _).mpr ⟨y, h.1, rfl, h.2⟩))
    | invalidNode y q =>
      exact List.mem_append_left _ (List.mem_append_left _ ((I.out _).mpr ⟨y, h.1, rfl, h.2⟩))
    | disconnected y =>
      exact List.mem_append_left _ (List.mem_append_left _ ((I.out _).mpr ⟨y, h.1, rfl, h.2⟩))
    | missingEdge x y => exact List.mem_append_right _ ((hme _).mpr ⟨x, y, rfl, h⟩)
    | overlap q x y =>
      obtain ⟨hx, hy, hne, hq, c, d, hc, hd, hqc, hqd⟩ := h
      · have h1 := (I.lab q x).mpr ⟨hx, hq, c, hc, hqc⟩
        have h2 := (I.lab q y).mpr ⟨hy, hq, d, hd, hqd⟩
        have hlen : 2 ≤ (s.labels q).length := by
          cases hl : s.labels q with
          | nil => rw [hl] at h1; cases h1
          | cons a l =>
            cases l with
            | nil =>
              rw [hl, List.mem_singleton] at h1 h2
              exact absurd (h1.trans h2.symm) hne
            | cons => simp
        have hlen' := (hX (s.labels q)).length_eq
        cases hl : ordX (s.labels q) with
        | nil => rw [hl] at hlen'; simp at hlen'; omega
        | cons r l =>
          cases l with
          | nil => rw [hl] at hlen'; simp at hlen'; omega
          | cons z l =>
            exact ⟨r, z, List.mem_append_left _ (List.mem_append_right _ ((hov _).mpr ⟨q, r, _, hlen, hl, z, by simp, rfl⟩))⟩

end Py
end MM
