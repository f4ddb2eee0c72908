import Verif.Spec.Rename
import Verif.Py.ParseInv

/-! Lemmas for C117: parsing commutes with renaming. -/

namespace MM
namespace Py

variable {α β : Type} [DecidableEq α] [DecidableEq β]

/-- The same numbers for the renamed labels. -/
structure LabelDict.Ren (f : α → β) (L : LabelDict α) (L' : LabelDict β) : Prop where
  label : L'.label = L.label.map f
  idx : ∀ a, L'.idx (f a) = L.idx a

/-- The same graph with renamed labels. -/
structure LGraph.Ren (f : α → β) (X : LGraph α) (X' : LGraph β) : Prop where
  g : X'.g = X.g
  L : LabelDict.Ren f X.L X'.L

/-- Both end with the same exception, or both with related values. -/
def Both {ε γ δ : Type} (R : γ → δ → Prop) (x : Except ε γ) (y : Except ε δ) : Prop :=
  (∃ e, x = .error e ∧ y = .error e) ∨ ∃ c d, x = .ok c ∧ y = .ok d ∧ R c d

section
variable {f g : α → β}

theorem LabelDict.Ren.empty : LabelDict.Ren f LabelDict.empty LabelDict.empty := ⟨rfl, fun _ => rfl⟩

theorem LabelDict.Ren.get (hf : Function.Injective f) {L : LabelDict α} {L' : LabelDict β} (h : L.Ren f L') (a : α) :
    (L.get a).1.Ren f (L'.get (f a)).1 ∧ (L'.get (f a)).2 = (L.get a).2 := by
  unfold LabelDict.get
  rw [h.idx a]
  cases L.idx a with
  | some k => exact ⟨h, rfl⟩
  | none =>
    refine ⟨⟨?_, fun b => ?_⟩, ?_⟩
    · simp [h.label]
    · simp only [hf.eq_iff, h.idx, h.label, List.length_map]
    · simp [h.label]

theorem LabelDict.Ren.has {L : LabelDict α} {L' : LabelDict β} (h : L.Ren f L') (a : α) : L'.has (f a) = L.has a := by
  unfold LabelDict.has; rw [h.idx]

theorem LabelDict.Ren.nil {L : LabelDict α} {L' : LabelDict β} (h : L.Ren f L') : L'.label = [] ↔ L.label = [] := by
  rw [h.label, List.map_eq_nil_iff]

theorem LGraph.Ren.push (hf : Function.Injective f) {X : LGraph α} {X' : LGraph β} (h : X.Ren f X') (a b : α) : (X.push a b).Ren f (X'.push (f a) (f b)) := by
  obtain ⟨h1, e1⟩ := h.L.get hf a
  obtain ⟨h2, e2⟩ := h1.get hf b
  refine ⟨?_, h2⟩
  show X'.g.pushBack _ _ = X.g.pushBack _ _
  rw [h.g, e1, e2]

theorem LGraph.Ren.pushes (hf : Function.Injective f) (l : List (α × α)) : ∀ {X : LGraph α} {X' : LGraph β}, X.Ren f X' →
    (l.foldl (fun X e => X.push e.1 e.2) X).Ren f ((l.map fun e => (f e.1, f e.2)).foldl (fun X e => X.push e.1 e.2) X') := by
  induction l with
  | nil => intro X X' h; exact h
  | cons e l ih => intro X X' h; exact ih (h.push hf e.1 e.2)

theorem LGraph.Ren.touches (hf : Function.Injective f) (l : List α) : ∀ {X : LGraph α} {X' : LGraph β}, X.Ren f X' → (l.foldl touch X).Ren f ((l.map f).foldl touch X') := by
  induction l with
  | nil => intro X X' h; exact h
  | cons a l ih => intro X X' h; exact ih ⟨h.g, (h.L.get hf a).1⟩

theorem LGraph.Ren.read (hf : Function.Injective f) (edges : List (α × α)) (nodes : Option (List α)) :
    (LGraph.read edges nodes).Ren f (LGraph.read (edges.map fun e => (f e.1, f e.2)) (nodes.map fun l => l.map f)) := by
  have h0 : (LGraph.empty : LGraph α).Ren f LGraph.empty := ⟨rfl, .empty⟩
  have h1 := h0.pushes hf edges
  unfold LGraph.read
  cases nodes with
  | none => exact h1
  | some ns =>
    have h2 := h1.touches hf ns
    refine ⟨?_, h2.L⟩
    simp only [Option.map_some]
    rw [h2.g, h1.L.label, h2.L.label, List.length_map, List.length_map]

theorem chainNums_ren {L : LabelDict α} {L' : LabelDict β} (h : L.Ren g L') (l : List α) : chainNums L' (l.map g) = chainNums L l := by
  induction l with
  | nil => rfl
  | cons x l ih => simp only [List.map_cons, chainNums, h.idx, ih]

theorem chainmap_ren {S T : LabelDict α} {S' T' : LabelDict β} (hS : S.Ren f S') (hT : T.Ren g T') (C : List (α × List α)) : ∀ m, chainmap S' T' (renameChains f g C) m = chainmap S T C m := by
  induction C with
  | nil => intro m; rfl
  | cons kv C ih =>
    intro m
    simp only [renameChains] at ih
    simp only [renameChains, List.map_cons, chainmap, List.map_eq_nil_iff, chainNums_ren hT, hS.idx, ih]

theorem pinEdges_ren (hg : Function.Injective g) {p : α} (l : List α) : ∀ {T : LGraph α} {T' : LGraph β}, T.Ren g T' → Both (LGraph.Ren g) (pinEdges p l T) (pinEdges (g p) (l.map g) T') := by
  induction l with
  | nil => intro T T' h; exact .inr ⟨T, T', rfl, rfl, h⟩
  | cons q l ih =>
    intro T T' h
    simp only [List.map_cons, pinEdges, h.L.has]
    split
    · exact ih (h.push hg p q)
    · exact .inl ⟨_, rfl, rfl⟩

/-- The states of the loops over suspended chains. -/
structure PState.Ren (f g : α → β) (s : PState α) (s' : PState β) : Prop where
  S : s.S.Ren f s'.S
  T : s.T.Ren g s'.T
  fixedC : s'.fixedC = s.fixedC
  pins : s'.pins = s.pins

theorem addPin_ren (hf : Function.Injective f) (hg : Function.Injective g) {p : α} (hp : f p = g p) (v : α) (blob : List α) {s : PState α} {s' : PState β} (h : s.Ren f g s') :
    Both (PState.Ren f g) (addPin p v blob s) (addPin (f p) (f v) (blob.map g) s') := by
  unfold addPin
  rw [h.S.L.has, hp, h.T.L.has]
  split
  · exact .inl ⟨_, rfl, rfl⟩
  split
  · exact .inl ⟨_, rfl, rfl⟩
  rcases pinEdges_ren hg (p := p) blob h.T with ⟨e, e1, e2⟩ | ⟨T, T', e1, e2, hT⟩
  · rw [e1, e2]; exact .inl ⟨_, rfl, rfl⟩
  · rw [e1, e2]
    simp only [List.map_eq_nil_iff]
    split
    · exact .inr ⟨_, _, rfl, rfl, h.S, hT, h.fixedC, h.pins⟩
    · obtain ⟨r1, r2⟩ := h.S.L.get hf p
      obtain ⟨t1, t2⟩ := hT.L.get hg p
      rw [hp] at r1 r2
      rw [r1.has]
      split
      · refine .inr ⟨_, _, rfl, rfl, ?_, ⟨hT.g, t1⟩, ?_, ?_⟩
        · have : LGraph.Ren f { s.S with L := (s.S.L.get p).1 } { s'.S with L := (s'.S.L.get (g p)).1 } := ⟨h.S.g, r1⟩
          have := this.push hf v p
          rw [hp] at this
          exact this
        · simp only [r2, t2, h.fixedC]
        · simp only [h.pins]
      · exact .inl ⟨_, rfl, rfl⟩

theorem addPins_ren (hf : Function.Injective f) (hg : Function.Injective g) (l : List (α × α × List α)) (hp : ∀ b ∈ l, f b.1 = g b.1) : ∀ {s : PState α} {s' : PState β}, s.Ren f g s' →
    Both (PState.Ren f g) (addPins l s) (addPins (l.map fun b => (f b.1, f b.2.1, b.2.2.map g)) s') := by
  induction l with
  | nil => intro s s' h; exact .inr ⟨_, _, rfl, rfl, h⟩
  | cons b l ih =>
    intro s s' h
    rw [List.forall_mem_cons] at hp
    simp only [List.map_cons, addPins]
    rcases addPin_ren hf hg hp.1 b.2.1 b.2.2 h with ⟨e, e1, e2⟩ | ⟨s1, s1', e1, e2, h1⟩
    · rw [e1, e2]; exact .inl ⟨_, rfl, rfl⟩
    · rw [e1, e2]; exact ih hp.2 h1

theorem blobs_ren {pin : α → Nat → α} {pin' : β → Nat → β} (a : Args α) (hpin : ∀ vb ∈ a.suspend, ∀ i, pin' (f vb.1) i = f (pin vb.1 i)) :
    (a.rename f g).blobs pin' = (a.blobs pin).map fun b => (f b.1, f b.2.1, b.2.2.map g) := by
  unfold Args.blobs Args.rename
  simp only [List.flatMap_map, List.map_flatMap, List.map_map]
  refine List.flatMap_congr fun vb hvb => ?_
  rw [List.zipIdx_map, List.map_map]
  refine List.map_congr_left fun bi _ => ?_
  simp [hpin vb hvb]

/-- What the parser prepares. -/
structure Parsed.Ren (f g : α → β) (P : Parsed α) (P' : Parsed β) : Prop where
  S : P.S.Ren f P'.S
  T : P.T.Ren g P'.T
  fixedC : P'.fixedC = P.fixedC
  initC : P'.initC = P.initC
  restrC : P'.restrC = P.restrC
  pins : P'.pins = P.pins

theorem parse_ren (hf : Function.Injective f) (hg : Function.Injective g) {pin : α → Nat → α} {pin' : β → Nat → β} (a : Args α)
    (hpin : ∀ vb ∈ a.suspend, ∀ i, pin' (f vb.1) i = f (pin vb.1 i)) (hfg : ∀ vb ∈ a.suspend, ∀ i, f (pin vb.1 i) = g (pin vb.1 i)) :
    Both (Parsed.Ren f g) (a.parse pin) ((a.rename f g).parse pin') := by
  have hS := LGraph.Ren.read hf a.srcE a.srcN
  have hT := LGraph.Ren.read hg a.tgtE a.tgtN
  unfold Args.parse
  rw [blobs_ren a hpin]
  simp only [Args.rename]
  simp only [hS.L.nil, hT.L.nil, chainmap_ren hS.L hT.L]
  generalize LGraph.read a.srcE a.srcN = X at hS ⊢
  generalize LGraph.read a.tgtE a.tgtN = Y at hT ⊢
  generalize LGraph.read (a.srcE.map fun e => (f e.1, f e.2)) (a.srcN.map fun l => l.map f) = X' at hS ⊢
  generalize LGraph.read (a.tgtE.map fun e => (g e.1, g e.2)) (a.tgtN.map fun l => l.map g) = Y' at hT ⊢
  split
  · exact .inl ⟨_, rfl, rfl⟩
  split
  · exact .inl ⟨_, rfl, rfl⟩
  cases chainmap X.L Y.L a.fixed [] with
  | error e => exact .inl ⟨_, rfl, rfl⟩
  | ok fx =>
    cases chainmap X.L Y.L a.initial [] with
    | error e => exact .inl ⟨_, rfl, rfl⟩
    | ok ini =>
      cases chainmap X.L Y.L a.restr [] with
      | error e => exact .inl ⟨_, rfl, rfl⟩
      | ok re =>
        simp only
        have hb : ∀ b ∈ a.blobs pin, f b.1 = g b.1 := by
          intro b hb
          unfold Args.blobs at hb
          obtain ⟨vb, h1, h2⟩ := List.mem_flatMap.mp hb
          obtain ⟨bi, _, rfl⟩ := List.mem_map.mp h2
          exact hfg vb h1 _
        rcases addPins_ren hf hg (a.blobs pin) hb (s := ⟨X, Y, fx, 0⟩) (s' := ⟨X', Y', fx, 0⟩) ⟨hS, hT, rfl, rfl⟩ with ⟨e, e1, e2⟩ | ⟨s1, s1', e1, e2, h1⟩
        · rw [e1, e2]; exact .inl ⟨_, rfl, rfl⟩
        · rw [e1, e2]
          exact .inr ⟨_, _, rfl, rfl, h1.S, h1.T, h1.fixedC, rfl, rfl, h1.pins⟩

theorem Parsed.Ren.input {P : Parsed α} {P' : Parsed β} (h : P.Ren f g P') : P'.input = P.input := by
  simp only [Parsed.input, h.S.g, h.T.g, h.fixedC, h.initC, h.restrC]

theorem labelsOf_ren {T : LabelDict α} {T' : LabelDict β} (h : T.Ren g T') (l : List Nat) : Both (fun c c' => c' = c.map g) (labelsOf T l) (labelsOf T' l) := by
  induction l with
  | nil => exact .inr ⟨_, _, rfl, rfl, rfl⟩
  | cons z l ih =>
    simp only [labelsOf, h.label, List.getElem?_map]
    cases T.label[z]? with
    | none => exact .inl ⟨_, rfl, rfl⟩
    | some x =>
      rcases ih with ⟨e, e1, e2⟩ | ⟨c, c', e1, e2, rfl⟩
      · rw [e1, e2]; exact .inl ⟨_, rfl, rfl⟩
      · rw [e1, e2]; exact .inr ⟨_, _, rfl, rfl, rfl⟩

theorem rchain_ren {S T : LabelDict α} {S' T' : LabelDict β} (hS : S.Ren f S') (hT : T.Ren g T') (cs : List (List Nat)) : ∀ v, Both (fun d d' => d' = renameChains f g d) (rchain S T v cs) (rchain S' T' v cs) := by
  induction cs with
  | nil => intro v; exact .inr ⟨_, _, rfl, rfl, rfl⟩
  | cons c cs ih =>
    intro v
    simp only [rchain, hS.label, List.getElem?_map]
    cases S.label[v]? with
    | none => exact .inl ⟨_, rfl, rfl⟩
    | some x =>
      rcases labelsOf_ren hT c with ⟨e, e1, e2⟩ | ⟨ls, ls', e1, e2, rfl⟩
      · rw [e1, e2]; exact .inl ⟨_, rfl, rfl⟩
      · rw [e1, e2]
        rcases ih (v + 1) with ⟨e, e3, e4⟩ | ⟨r, r', e3, e4, rfl⟩
        · simp only [Option.map_some, e3, e4]; exact .inl ⟨_, rfl, rfl⟩
        · simp only [Option.map_some, e3, e4]; exact .inr ⟨_, _, rfl, rfl, rfl⟩

theorem outcome_ren {x : Except PyErr (Result α)} {y : Except PyErr (Result β)} (h : Both (fun r r' => r' = r.rename f g) x y) : outcome y = (outcome x).rename f g := by
  rcases h with ⟨e, rfl, rfl⟩ | ⟨r, r', rfl, rfl, rfl⟩
  · cases e with
    | core k =>
      cases k <;> rfl
    | _ => rfl
  · rfl

theorem answer_ren {P : Parsed α} {P' : Parsed β} (h : P.Ren f g P') (ro : Bool) (m : M (Bool × List (List Nat))) : Both (fun r r' => r' = r.rename f g) (answer P ro m) (answer P' ro m) := by
  unfold answer
  cases m with
  | error e => exact .inl ⟨_, rfl, rfl⟩
  | ok r =>
    obtain ⟨ok, cs⟩ := r
    simp only [h.pins]
    rcases rchain_ren h.S.L h.T.L (cs.take (cs.length - P.pins)) 0 with ⟨e, e1, e2⟩ | ⟨d, d', e1, e2, rfl⟩
    · rw [e1, e2]; exact .inl ⟨_, rfl, rfl⟩
    · rw [e1, e2]; exact .inr ⟨_, _, rfl, rfl, rfl⟩

end

/-! The order of the items of a dict. -/

theorem insertKey_lt {k : Int} {x : Int × List Int} (h : k < x.1) (c : List Int) (m : ChainMap) : insertKey k c (x :: m) = (k, c) :: x :: m := if_pos h

theorem insertKey_eq {k : Int} {x : Int × List Int} (h : k = x.1) (c : List Int) (m : ChainMap) : insertKey k c (x :: m) = x :: m := by
  simp only [insertKey]; rw [if_neg (by omega), if_pos h]

theorem insertKey_gt {k : Int} {x : Int × List Int} (h : x.1 < k) (c : List Int) (m : ChainMap) : insertKey k c (x :: m) = x :: insertKey k c m := by
  simp only [insertKey]; rw [if_neg (by omega), if_neg (by omega)]

theorem insertKey_comm {k k' : Int} (hk : k ≠ k') (c c' : List Int) : ∀ m, insertKey k c (insertKey k' c' m) = insertKey k' c' (insertKey k c m) := by
  have front : ∀ m : ChainMap, (∀ d, insertKey k d m = (k, d) :: m) → (∀ d, insertKey k' d m = (k', d) :: m) →
      insertKey k c (insertKey k' c' m) = insertKey k' c' (insertKey k c m) := by
    intro m h h'
    rw [h, h']
    rcases lt_trichotomy k k' with e | e | e
    · rw [insertKey_lt e, insertKey_gt e, h']
    · exact absurd e hk
    · rw [insertKey_gt e, insertKey_lt e, h]
  intro m
  induction m with
  | nil => exact front [] (fun _ => rfl) (fun _ => rfl)
  | cons x m ih =>
    rcases lt_trichotomy k x.1 with h | h | h <;> rcases lt_trichotomy k' x.1 with h' | h' | h'
    · exact front _ (fun d => insertKey_lt h d m) (fun d => insertKey_lt h' d m)
    · rw [insertKey_eq h', insertKey_lt h, insertKey_gt (x := (k, c)) (by show k < k'; omega), insertKey_eq h']
    · rw [insertKey_gt h', insertKey_lt h, insertKey_lt h, insertKey_gt (x := (k, c)) (by show k < k'; omega), insertKey_gt h']
    · rw [insertKey_lt h', insertKey_eq h, insertKey_gt (x := (k', c')) (by show k' < k; omega), insertKey_eq h, insertKey_lt h']
    · omega
    · rw [insertKey_gt h', insertKey_eq h, insertKey_eq h, insertKey_gt h']
    · rw [insertKey_lt h', insertKey_gt h, insertKey_lt h', insertKey_gt (x := (k', c')) (by show k' < k; omega), insertKey_gt h]
    · rw [insertKey_eq h', insertKey_gt h, insertKey_eq h']
    · rw [insertKey_gt h', insertKey_gt h, insertKey_gt h, insertKey_gt h', ih]

omit [DecidableEq α] in
theorem chainNums_runtime (T : LabelDict α) (l : List α) {e : PyErr} (h : chainNums T l = .error e) : e = .runtime := by
  induction l with
  | nil => cases h
  | cons x l ih =>
    simp only [chainNums] at h
    split at h
    · cases h; rfl
    · cases h2 : chainNums T l with
      | error e' => rw [h2] at h; cases h; exact ih h2
      | ok c => rw [h2] at h; cases h

theorem chainmap_runtime (S T : LabelDict α) (C : List (α × List α)) : ∀ m {e : PyErr}, chainmap S T C m = .error e → e = .runtime := by
  induction C with
  | nil => intro m e h; cases h
  | cons kv C ih =>
    intro m e h
    simp only [chainmap] at h
    split at h
    · exact ih _ h
    · cases h2 : chainNums T kv.2 with
      | error e' => rw [h2] at h; cases h; exact chainNums_runtime T _ h2
      | ok c =>
        rw [h2] at h
        simp only at h
        split at h
        · cases h; rfl
        · exact ih _ h

/-- Two items with different keys can be exchanged. -/
theorem chainmap_swap {S : LabelDict α} (hS : S.WF) (T : LabelDict α) {x y : α × List α} (hxy : x.1 ≠ y.1) (C : List (α × List α)) (m : ChainMap) :
    chainmap S T (x :: y :: C) m = chainmap S T (y :: x :: C) m := by
  simp only [chainmap]
  by_cases hx : x.2 = []
  · simp only [if_pos hx]
  by_cases hy : y.2 = []
  · simp only [if_pos hy]
  simp only [if_neg hx, if_neg hy]
  cases h1 : chainNums T x.2 with
  | error e =>
    cases h2 : chainNums T y.2 with
    | error e' => rw [chainNums_runtime T _ h1, chainNums_runtime T _ h2]
    | ok c' => cases h4 : S.idx y.1 <;> simp [chainNums_runtime T _ h1]
  | ok c =>
    cases h2 : chainNums T y.2 with
    | error e' => cases h3 : S.idx x.1 <;> simp [chainNums_runtime T _ h2]
    | ok c' =>
      cases h3 : S.idx x.1 with
      | none => cases h4 : S.idx y.1 <;> rfl
      | some i =>
        cases h4 : S.idx y.1 with
        | none => rfl
        | some j =>
          simp only
          rw [insertKey_comm]
          intro e
          have e' : j = i := by exact_mod_cast e
          have a1 := (hS.idx _ _).mp h3
          have a2 := (hS.idx _ _).mp h4
          rw [e', a1] at a2
          exact hxy (Option.some.inj a2)

theorem chainmap_perm {S : LabelDict α} (hS : S.WF) (T : LabelDict α) {C D : List (α × List α)} (h : C.Perm D) : (C.map Prod.fst).Nodup → ∀ m,
    chainmap S T C m = chainmap S T D m := by
  induction h with
  | nil => intro _ m; rfl
  | cons x _ ih =>
    intro hn m
    have hn := (List.nodup_cons.mp hn).2
    simp only [chainmap, ih hn]
  | swap x y l =>
    intro hn m
    refine chainmap_swap hS T (fun e => ?_) l m
    have := (List.nodup_cons.mp hn).1
    simp [e] at this
  | trans h1 h2 ih1 ih2 =>
    intro hn m
    rw [ih1 hn m, ih2 ((h1.map _).nodup_iff.mp hn) m]

end Py
end MM
