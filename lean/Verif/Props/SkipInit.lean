import Verif.Graph.InitLinks
import Verif.Props.Demo

/-! C66: `skip_initialization`. -/

namespace MM

open Relation
open Scratch (Cfg)

variable {I : Input} {sort : List (List Nat) → List (List Nat)}

/-- How a call with `skip_initialization` ends. -/
theorem findEmbedding_skip (hs : SortOK sort) (hI : I.OK) (hr : I.Compatible) (C : Cfg) {A : Params}
    (hA : A.skipInit = true) (ro : Bool) (t : Tape) :
    (Spec.CompleteStart I ∧ ((∃ r, findEmbedding sort C A ro I t = .ok r) ∨
      A.Halts ∧ findEmbedding sort C A ro I t = .error .cancelled)) ∨
    (¬ Spec.CompleteStart I ∧ findEmbedding sort C A ro I t = .error .badInit) ∨
    findEmbedding sort C A ro I t = .error .corrupt ∨ findEmbedding sort C A ro I t = .error .small := by
  have hends := findEmbedding_free hs hI hr C A ro t
  unfold findEmbedding at hends ⊢
  rcases process_spec hs hI with ⟨p, hp, l0, hrep⟩ | hbad | hbad
  · rw [hp] at hends ⊢
    have d1 := dom_free p.P
    have d2 := hrep.even' hr
    have d3 := hrep.initOK hI
    obtain ⟨X, hX, hri⟩ := Run.new_spec hrep.wf d1 d3 t
    obtain ⟨X', hX', hst⟩ := Run.new_started hrep.wf d1 d3 t
    rw [hX] at hX'; cases hX'
    dsimp only [bind, Except.bind] at hends ⊢
    rw [hX] at hends ⊢
    dsimp only at hends ⊢
    have hN : 0 < p.P.N := by rw [hrep.hN]; exact hI.src_pos
    have hiff := hst.linked_iff hrep hI hri.vn
    have hbad : X.init.linked p.P X.S.vn = false →
        Run.heuristic p.P C { A with restricted := !I.restrC.isEmpty } X = .error .badInit := by
      intro hl
      unfold Run.heuristic Run.heuristicFor Run.start Run.resetMood
      dsimp only [bind, Except.bind]
      rw [if_pos hA, hl]
      rfl
    by_cases hl : X.init.linked p.P X.S.vn = true
    · left
      refine ⟨hiff.1 hl, ?_⟩
      rcases heuristic_spec hrep.wf d1 d2 hN (C := C) (A := { A with restricted := !I.restrC.isEmpty }) hri with
        ⟨⟨Y, ok⟩, hY, _⟩ | ⟨hb, _⟩ | ⟨hc, hY⟩
      · rw [hY]
        dsimp only
        left
        by_cases h2 : (ro || ok) = true
        · rw [if_pos h2]
          obtain ⟨cs, hcs, _⟩ := hrep.getChains Y.best (List.range I.src.n) Y.S.tape
          rw [hcs]
          exact ⟨_, rfl⟩
        · rw [if_neg h2]
          exact ⟨_, rfl⟩
      · have := hb hA
        rw [hl] at this; simp at this
      · rw [hY]; exact Or.inr ⟨hc, rfl⟩
    · right; left
      refine ⟨fun hc => hl (hiff.2 hc), ?_⟩
      rw [hbad (by simpa using hl)]
  · right; right; left; rw [hbad]; rfl
  · right; right; right; rw [hbad]; rfl

/-- With `skip_initialization`, initial chains that are not complete are refused, before any
search: the call raises an exception. -/
theorem C66_incomplete_refused (hs : SortOK sort) (hI : I.OK) (hr : I.Compatible) {C : Cfg} {A : Params}
    (hA : A.skipInit = true) {ro : Bool} {t : Tape} (h : ¬ Spec.CompleteStart I) :
    ∃ e, findEmbedding sort C A ro I t = .error e ∧ e ∈ [Fault.badInit, .corrupt, .small] := by
  rcases findEmbedding_skip hs hI hr C hA ro t with ⟨hc, _⟩ | ⟨_, hb⟩ | hb | hb
  · exact absurd hc h
  · exact ⟨_, hb, by simp⟩
  · exact ⟨_, hb, by simp⟩
  · exact ⟨_, hb, by simp⟩

/-- Complete initial chains are not refused for being incomplete. -/
theorem C66_complete_accepted (hs : SortOK sort) (hI : I.OK) (hr : I.Compatible) {C : Cfg} {A : Params}
    (hA : A.skipInit = true) {ro : Bool} {t : Tape} (h : Spec.CompleteStart I) :
    findEmbedding sort C A ro I t ≠ .error .badInit := by
  rcases findEmbedding_skip hs hI hr C hA ro t with ⟨_, ⟨r, hb⟩ | ⟨_, hb⟩⟩ | ⟨hc, _⟩ | hb | hb
  · rw [hb]; simp
  · rw [hb]; simp
  · exact absurd h hc
  · rw [hb]; simp
  · rw [hb]; simp

/-- In particular every minor embedding that agrees with the fixed chains is accepted as
initial chains. -/
theorem C66_embedding_accepted (hs : SortOK sort) (hI : I.OK) (hr : I.Compatible) {C : Cfg} {A : Params}
    (hA : A.skipInit = true) {ro : Bool} {t : Tape} {cs : List (List Nat)}
    (he : Spec.Embeds I.src I.tgt cs) (hg : ∀ (u : Nat) (c : List Nat), cs[u]? = some c → Spec.Given I u c) :
    findEmbedding sort C A ro I t ≠ .error .badInit := by
  refine C66_complete_accepted hs hI hr hA ?_
  intro u hu _
  have hc := List.getElem?_eq_getElem (by rw [he.size]; exact hu : u < cs.length)
  refine ⟨_, hg _ _ hc, he.connected u _ (by simp) hc, ?_⟩
  intro v huv hedge
  have hv := (hedge.lt hI.src).2
  have hd := List.getElem?_eq_getElem (by rw [he.size]; exact hv : v < cs.length)
  exact ⟨_, hg _ _ hd, Or.inl (he.edges u v _ _ (by simp) hedge huv hc hd)⟩

/-- Whether a call ends with a given exception. -/
def Demo.raises (m : M (Bool × List (List Nat))) (e : Fault) : Bool :=
  match m with
  | .ok _ => false
  | .error e' => decide (e' = e)

/-- A complete start, a start whose middle chain touches only one neighbour, a start with a
chain in two pieces, and a start without a chain for the last node. -/
def Demo.starts : List ChainMap :=
  [[(0, [0]), (1, [1]), (2, [2])], [(0, [0]), (1, [1]), (2, [3])], [(0, [0]), (1, [1, 3]), (2, [2])],
    [(0, [0]), (1, [1])]]

/-- The hypotheses are met, and the answers differ. -/
example : (∀ m ∈ Demo.starts, ({ Demo.path3 with initC := m } : Input).OK) ∧
    (∀ m ∈ Demo.starts, ({ Demo.path3 with initC := m } : Input).Compatible) ∧
    Demo.starts.map (fun m => Demo.raises (findEmbedding Demo.sortBySize Demo.cfg
      { Demo.params with skipInit := true } false { Demo.path3 with initC := m } Demo.tape0) .badInit) =
      [false, true, true, true] := by
  refine ⟨?_, ?_, by decide +kernel⟩
  · intro m hm
    exact Demo.Checked.ok (by revert m hm; decide)
  · intro m hm u v w x _ _ _ _ _ _ _
    exact Or.inl (fun kv hkv => by simp [Demo.path3] at hkv)

end MM
