import Verif.Core.FillRun
import Verif.Graph.Result

/-! How many returned chains share a target node. -/

namespace MM

open Scratch (Cfg)

variable {sort : List (List Nat) → List (List Nat)} {I : Input} {p : Proc} {l0 : List Nat}

/-- Numbers below `n` with `f`, without repetition. -/
theorem length_le_cnt {f : Nat → Bool} {n : Nat} {l : List Nat} (hn : l.Nodup) (h : ∀ x ∈ l, x < n ∧ f x = true) :
    l.length ≤ cnt f n := by
  rw [Input.cnt_eq_filter]
  refine (hn.subperm fun x hx => ?_).length_le
  rw [List.mem_filter, List.mem_range]
  exact h x hx

theorem cnt_le_length {f : Nat → Bool} {n : Nat} {l : List Nat} (h : ∀ x, x < n → f x = true → x ∈ l) :
    cnt f n ≤ l.length := by
  rw [Input.cnt_eq_filter]
  refine ((List.nodup_range.sublist List.filter_sublist).subperm fun x hx => ?_).length_le
  rw [List.mem_filter, List.mem_range] at hx
  exact h x hx.1 hx.2

/-- The entries of a list with a property, counted through an injective numbering. -/
theorem countP_numbered {α : Type} (pr : α → Bool) (g : Nat → Nat) : ∀ (cs : List α) (k : Nat),
    (∀ i j, i < k + cs.length → j < k + cs.length → g i = g j → i = j) →
    ∃ l : List Nat, l.length = cs.countP pr ∧ l.Nodup ∧
      ∀ y ∈ l, ∃ i c, cs[i]? = some c ∧ pr c = true ∧ y = g (k + i)
  | [], _, _ => ⟨[], rfl, List.nodup_nil, by simp⟩
  | c :: cs, k, hg => by
    obtain ⟨l, h1, h2, h3⟩ := countP_numbered pr g cs (k + 1) (fun i j hi hj => hg i j
      (by simp only [List.length_cons]; omega) (by simp only [List.length_cons]; omega))
    have h3' : ∀ y ∈ l, ∃ i c', (c :: cs)[i]? = some c' ∧ pr c' = true ∧ y = g (k + i) := by
      intro y hy
      obtain ⟨i, c', a, b, e⟩ := h3 y hy
      exact ⟨i + 1, c', by simpa using a, b, by rw [e]; congr 1; omega⟩
    by_cases hc : pr c = true
    · refine ⟨g k :: l, by simp [hc, h1], List.nodup_cons.2 ⟨?_, h2⟩, ?_⟩
      · intro hm
        obtain ⟨i, c', a, _, e⟩ := h3 _ hm
        have hi : i < cs.length := by
          by_contra hcon; rw [List.getElem?_eq_none (by omega)] at a; simp at a
        have := hg k (k + 1 + i) (by simp) (by simp only [List.length_cons]; omega) e
        omega
      · intro y hy
        rcases List.mem_cons.1 hy with rfl | hy
        · exact ⟨0, c, rfl, hc, rfl⟩
        · exact h3' y hy
    · exact ⟨l, by simp [hc, h1], h2, h3'⟩

theorem Proc.Rep.screw_inj (h : p.Rep I l0) {u v : Nat} (hu : u < I.src.n) (hv : v < I.src.n)
    (he : p.screw u = p.screw v) : u = v := by rw [← h.su u hu, ← h.su v hv, he]

/-- What the fills of the final state mean for the chains handed out. -/
theorem Proc.Rep.shared (h : p.Rep I l0) {E : Emb} {B : Nat} (hB : Few p.P B E) {cs : List (List Nat)}
    (hlen : cs.length = I.src.n) (hcs : ∀ (u : Nat) (c : List Nat), cs[u]? = some c → Handed p l0 E u c) {x : Nat}
    (hx : ¬ I.ResQ x) : cs.countP (fun c => decide (x ∈ c)) ≤ B := by
  obtain ⟨l, h1, h2, h3⟩ := countP_numbered (fun c => decide (x ∈ c)) p.screw cs 0
    (fun i j hi hj => h.screw_inj (by omega) (by omega))
  rw [← h1]
  cases hl : l with
  | nil => simp
  | cons y l' =>
    obtain ⟨i, c, a, b, _⟩ := h3 y (by rw [hl]; simp)
    obtain ⟨j, hj, _⟩ := ((hcs i c a).2 x).1 (by simpa using b)
    have hjq : j < p.P.nq := by
      by_contra hcon
      exact hx ((h.resv j x hj).1 (by omega))
    rw [← hl]
    have key : l.length ≤ cnt (fun v => (E.chains v).has j) p.P.N := by
      refine length_le_cnt h2 fun y hy => ?_
      obtain ⟨i, c, a, b, e⟩ := h3 y hy
      have hi : i < I.src.n := by
        rw [← hlen]; by_contra hcon; rw [List.getElem?_eq_none (by omega)] at a; simp at a
      obtain ⟨j', hj', hh⟩ := ((hcs i c a).2 x).1 (by simpa using b)
      have : j' = j := h.get_inj hj' hj
      subst this
      rw [e, Nat.zero_add, h.hN]
      exact ⟨h.slt i hi, hh⟩
    have := hB j hjq
    omega

/-- The fills of the initial state. -/
theorem Proc.Rep.init_few (h : p.Rep I l0) (hI : I.OK) {B : Nat}
    (hB : ∀ x : Nat, I.initC.countP (fun kv => decide ((x : Int) ∈ kv.2)) ≤ B) {E : Emb}
    (hE : E.Shape p.P (fun _ q => q < p.P.nq))
    (hc : ∀ v q, v < p.P.nv → ((E.chains v).has q = true ↔ ∃ qs, (v, qs) ∈ p.init ∧ q ∈ qs)) : Few p.P B E := by
  intro q hq
  have hqQ : q < l0.length := by rw [← h.hQ]; unfold Prob.Q; omega
  obtain ⟨x, hx⟩ := getElem?_lt hqQ
  have := hB x
  have key : cnt (fun v => (E.chains v).has q) p.P.N ≤
      ((I.initC.filter fun kv => decide ((x : Int) ∈ kv.2)).map fun kv => p.screw kv.1.toNat).length := by
    refine cnt_le_length fun v hv hh => ?_
    have hvn : v < p.P.nv := by
      by_contra hcon
      have := h.wf.fixed_ge v q (by omega) hv ((hE.fixd v q (by omega) hv).1 hh)
      omega
    obtain ⟨qs, hm, hq'⟩ := (hc v q hvn).1 hh
    obtain ⟨kv, hkv, e⟩ := (h.init.mem _).1 hm
    simp only [Prod.mk.injEq] at e
    rw [List.mem_map]
    refine ⟨kv, ?_, e.1.symm⟩
    rw [List.mem_filter]
    refine ⟨hkv, ?_⟩
    rw [e.2, List.mem_map] at hq'
    obtain ⟨y, hy, hyq⟩ := hq'
    obtain ⟨y1, y2, y3⟩ := (h.irange kv hkv).2 y hy
    have hb := h.back y.toNat (by omega) y3
    rw [hyq, hx] at hb
    simp only [Option.some.injEq] at hb
    have : (x : Int) = y := by omega
    simpa [this] using hy
  rw [List.length_map, ← List.countP_eq_length_filter] at key
  omega

/-- No free variable has a fixed neighbour. -/
def Input.Apart (I : Input) : Prop := ∀ u v, I.src.Edge u v → I.FixV u → I.FixV v

theorem Proc.Rep.apart (h : p.Rep I l0) (ha : I.Apart) : p.P.Apart := by
  intro u hu v hv
  obtain ⟨hvN, hf, _, e, w1, w2, _, _⟩ := h.vn_iff hu hv
  unfold Prob.fixed
  simp only [decide_eq_false_iff_not]
  intro hc
  refine hf (ha _ _ e.symm ((h.fixed _ w1).1 ?_))
  rw [w2]; exact hc

theorem findEmbedding_fill (hs : SortOK sort) (hI : I.OK) (hr : I.Compatible) (ha : I.Apart) {C : Cfg} {A : Params}
    {ro : Bool} {t : Tape} {r : Bool × List (List Nat)} {B : Nat} (hB : 1 ≤ B) (hA : A.bound ≤ B)
    (hi : ∀ x : Nat, I.initC.countP (fun kv => decide ((x : Int) ∈ kv.2)) ≤ B)
    (h : findEmbedding sort C A ro I t = .ok r) {x : Nat} (hx : ¬ I.ResQ x) :
    r.2.countP (fun c => decide (x ∈ c)) ≤ B := by
  unfold findEmbedding at h
  rcases process_spec hs hI with ⟨p, hp, l0, hrep⟩ | hbad | hbad
  rotate_left
  · rw [hbad] at h; simp [bind, Except.bind] at h
  · rw [hbad] at h; simp [bind, Except.bind] at h
  rw [hp] at h
  have d1 := dom_free p.P
  have d2 := hrep.even' hr
  have d3 := hrep.initOK hI
  obtain ⟨X, hX, hri⟩ := Run.new_spec hrep.wf d1 d3 t
  have hXs : X.best = Emb.empty ∧ Few p.P B X.init := by
    have := construct_shape hrep.wf d1 d3 (t := t)
    obtain ⟨⟨E, t'⟩, hc, hsh, hmem⟩ := this
    unfold Run.new at hX
    rw [hc] at hX
    simp only [bind, Except.bind, Except.ok.injEq] at hX
    rw [← hX]
    exact ⟨rfl, hrep.init_few hI hi hsh hmem⟩
  have hbest : Few p.P B X.best := by
    intro q _
    have : cnt (fun v => (X.best.chains v).has q) p.P.N = 0 := by
      rw [hXs.1]; exact cnt_eq_zero.2 (fun i _ => rfl)
    omega
  have hN : 0 < p.P.N := by rw [hrep.hN]; exact hI.src_pos
  have hfb := heuristicFor_fill hrep.wf d1 d2 hN (hrep.apart ha) (B := (B : Int)) (C := C)
    (A := { A with restricted := !I.restrC.isEmpty }) (by omega) hA hri hbest hXs.2
    (fuel := Run.shrinkFuel p.P { A with restricted := !I.restrC.isEmpty })
  dsimp only [bind, Except.bind] at h
  rw [hX] at h
  dsimp only at h
  unfold Run.heuristic at h
  split at h
  · simp at h
  · next Y hY =>
    have hf := hfb Y hY
    split at h
    · obtain ⟨cs, hcs, h1, h2⟩ := hrep.getChains Y.1.best (List.range I.src.n) Y.1.S.tape
      rw [hcs] at h
      simp only [Except.ok.injEq] at h
      rw [← h]
      have hlen : cs.length = I.src.n := by simpa using h1
      refine hrep.shared hf.best hlen ?_ hx
      intro u c hu
      have hul : u < I.src.n := by
        rw [← hlen]; by_contra hc; rw [List.getElem?_eq_none (by omega)] at hu; simp at hu
      exact h2 u u c (by rw [List.getElem?_range hul]) hu
    · simp only [Except.ok.injEq] at h
      rw [← h]
      simp

end MM
