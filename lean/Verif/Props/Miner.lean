import Verif.Graph.MinerHist
import Verif.Props.Demo

/-! C96–C102: a `miner` and histories of calls on it. -/

namespace MM

open Relation
open Scratch (Cfg)

variable {I : Input} {sort : List (List Nat) → List (List Nat)}

namespace Demo

/-- No bound on lengths, no overlaps, no local search, start from the initial chains. -/
def fresh : Quick := ⟨0, 0, false, true⟩

/-- The same, but go on from the chains of the miner. -/
def further : Quick := ⟨0, 0, false, false⟩

/-- A stop at the time `k` and ever after. -/
def stopAt (k : Nat) : Params := { params with stops := fun n => (false, decide (k ≤ n)) }

/-- A target with a second component, that has two nodes. -/
def cycleAndEdge : Input := { path3 with tgt := ⟨7, [(0, 1), (1, 2), (2, 3), (3, 4), (4, 0), (5, 6)]⟩ }

/-- The path with its last node fixed. -/
def fixedEnd : Input := { path3 with fixedC := [(2, [2])] }

/-- Chains for the path. -/
def chains3 : ChainMap := [(0, [0]), (1, [1, 2]), (2, [3])]

theorem cycleAndEdge_ok : cycleAndEdge.OK := Checked.ok (by decide)
theorem fixedEnd_ok : fixedEnd.OK := Checked.ok (by decide)

theorem path3_compatible : path3.Compatible := Input.compatible_of_nil rfl

theorem restart_ok : (path3.restart chains3).OK := Checked.ok (by decide)

/-- Nodes that have an edge to a smaller one are connected. -/
theorem onePiece {g : IGraph} (h : ∀ x < g.n, x = 0 ∨ ∃ y < x, g.Edge x y) : Spec.OnePiece g := by
  have key : ∀ x, x < g.n → ReflTransGen g.Edge x 0 ∧ ReflTransGen g.Edge 0 x := by
    intro x
    induction x using Nat.strongRecOn with
    | _ x ih =>
      intro hx
      rcases h x hx with rfl | ⟨y, hy, he⟩
      · exact ⟨.refl, .refl⟩
      · obtain ⟨h1, h2⟩ := ih y hy (by omega)
        exact ⟨h1.head he, h2.tail he.symm⟩
  intro a b ha hb
  exact (key a ha).1.trans (key b hb).2

theorem path3_onePiece : Spec.OnePiece path3.tgt := onePiece (by decide)

/-- Two searches, new initial chains, a search from there, two greedy passes. -/
def history : List Call :=
  [.find, .find, .initial chains3, .find, .quick cfg fresh (.listed [0, 1]), .quick cfg further (.listed [2])]

theorem history_ok : ∀ c ∈ history, Spec.CallOK path3 c := by
  intro c hc
  simp only [history, List.mem_cons, List.not_mem_nil, or_false] at hc
  rcases hc with rfl | rfl | rfl | rfl | rfl | rfl
  · trivial
  · trivial
  · exact restart_ok
  · trivial
  · exact ⟨rfl, by decide, by rintro v _ _ w ⟨kv, hkv, _⟩; simp [path3] at hkv⟩
  · exact ⟨rfl, by decide, by rintro v _ _ w ⟨kv, hkv, _⟩; simp [path3] at hkv⟩

theorem history_run : session sortBySize cfg params false path3 history tape0 =
    .ok [.found true [[2], [3], [4]], .found true [[2], [3], [4]], .done, .found true [[0], [1], [2]],
      .chains [[0], [4], [3]], .chains [[0], [4], [3]]] := by
  decide +kernel

end Demo

/-! ### C96 -/

/-- Whatever calls are made on a `miner`, in whatever order, the replies are as promised:
one for each call; a search that reports success hands out an embedding with the fixed
chains, one that fails hands out nothing, or all chains with `return_overlap`; greedy
passes hand out lists of target nodes with the fixed chains. A history breaks off only by an interrupt or by an exception about the
chains or the size of the problem; there is no undefined behaviour. Missing: greedy passes
after an earlier order was asked for with fixed chains, with local search, or with fixed
nodes before listed ones (see C23, C99). -/
theorem C96_histories_partial (hs : SortOK sort) (hI : I.OK) (hc : I.Compatible) {cs : List Call}
    (hk : ∀ c ∈ cs, Spec.CallOK I c) (C : Cfg) (A : Params) (ro : Bool) (t : Tape) :
    match session sort C A ro I cs t with
    | .ok rs => rs.length = cs.length ∧
        ∀ (i : Nat) (c : Call) (r : Reply), cs[i]? = some c → rs[i]? = some r → Spec.Answers I ro c r
    | .error e => e = .interrupted ∧ A.Halts ∨ e = .terminated .corrupt ∨ e = .terminated .small := by
  have h := session_spec hs hI hc hk C A ro t
  cases hr : session sort C A ro I cs t with
  | ok rs =>
    rw [hr] at h
    obtain ⟨l0, m, m', _, _, _, ht⟩ := h
    exact ⟨ht.length, ht.answers⟩
  | error e =>
    rw [hr] at h
    rcases h with h | ⟨h, _⟩
    · exact Or.inl h
    · exact Or.inr h

example : ∃ rs, session Demo.sortBySize Demo.cfg Demo.params false Demo.path3 Demo.history Demo.tape0 = .ok rs ∧
    rs.length = 6 ∧ (∀ c ∈ Demo.history, Spec.CallOK Demo.path3 c) ∧ Demo.path3.OK ∧ Demo.path3.Compatible ∧
    SortOK Demo.sortBySize :=
  ⟨_, Demo.history_run, rfl, Demo.history_ok, Demo.path3_ok, Demo.path3_compatible, Demo.sortOK⟩

/-- One search by a new `miner` gives what the function `find_embedding` gives. -/
theorem C96_single (C : Cfg) (A : Params) (ro ok : Bool) (t : Tape) (cs : List (List Nat)) :
    session sort C A ro I [.find] t = .ok [.found ok cs] ↔ findEmbedding sort C A ro I t = .ok (ok, cs) :=
  session_find ok cs

example : session Demo.sortBySize Demo.cfg Demo.params false Demo.path3 [.find] Demo.tape0 =
    .ok [.found true [[2], [3], [4]]] :=
  (C96_single _ _ _ _ _ _).2 Demo.path3_run

/-! ### C97 -/

/-- The claim that the flag says whether the chains form an embedding fails on a `miner`
that is used twice: the second search is stopped before it has seen anything, reports
failure, and hands out the embedding found by the first. -/
theorem C97_stale : ∃ (I : Input) (A : Params) (cs : List (List Nat)), I.OK ∧ I.fixedC = [] ∧
    (session Demo.sortBySize Demo.cfg A true I [.find, .find] Demo.tape0).toOption =
      some [.found true cs, .found false cs] :=
  ⟨Demo.path3, Demo.stopAt 1, [[2], [3], [4]], Demo.path3_ok, rfl, by decide +kernel⟩

/-- In every history with `return_overlap`: chains that come with success form an
embedding; unless a search can be stopped, chains that come with failure overlap. -/
theorem C97_flag_partial (hs : SortOK sort) (hI : I.OK) (hc : I.Compatible) {cs : List Call}
    (hk : ∀ c ∈ cs, Spec.CallOK I c) {C : Cfg} {A : Params} {t : Tape} {rs : List Reply}
    (h : session sort C A true I cs t = .ok rs) {i : Nat} {ok : Bool} {ds : List (List Nat)}
    (hr : rs[i]? = some (.found ok ds)) :
    (ok = true → Spec.EmbedsUpTo I.FixV I.src I.tgt ds) ∧ (ok = false → ¬ A.Stops → Spec.Overlaps ds) := by
  have h1 := session_spec hs hI hc hk C A true t
  rw [h] at h1
  obtain ⟨l0, m, m', _, _, _, ht⟩ := h1
  constructor
  · rintro rfl
    have hl : i < cs.length := by
      rw [← ht.length]; by_contra hcc; rw [List.getElem?_eq_none (by omega)] at hr; simp at hr
    have ha := ht.answers i cs[i] _ (List.getElem?_eq_getElem hl) hr
    revert ha
    generalize cs[i] = c
    intro ha
    cases c with
    | find => exact ha.1
    | quick _ _ s => cases s <;> exact ha.elim
    | initial _ => exact ha.elim
  · rintro rfl hA
    exact ht.overlaps hA i ds hr

example : (session Demo.sortBySize Demo.cfg Demo.params true Demo.triangle [.find] Demo.tape0).toOption =
    some [.found false [[1], [2], [3, 2]]] ∧ ¬ Demo.params.Stops :=
  ⟨by decide +kernel, by rintro ⟨n, h⟩; simp [Demo.params] at h⟩

/-! ### C98 -/

/-- The claim that mistakes in the chains raise Python exceptions fails: they end the
process, in the constructor, -/
theorem C98_constructor : ∃ I : Input, I.OK ∧ I.initC = [(0, [5])] ∧
    (match session Demo.sortBySize Demo.cfg Demo.params false I [] Demo.tape0 with
      | .ok _ => false
      | .error e => decide (e = .terminated .corrupt)) = true :=
  ⟨{ Demo.cycleAndEdge with initC := [(0, [5])] }, Demo.Checked.ok (by decide), rfl, by decide +kernel⟩

/-- in `set_initial_chains` -/
theorem C98_set_initial_chains : ∃ I : Input, I.OK ∧ (I.restart [(0, [5])]).OK ∧
    (match session Demo.sortBySize Demo.cfg Demo.params false I [.initial [(0, [5])]] Demo.tape0 with
      | .ok _ => false
      | .error e => decide (e = .terminated .corrupt)) = true :=
  ⟨Demo.cycleAndEdge, Demo.cycleAndEdge_ok, Demo.Checked.ok (by decide), by decide +kernel⟩

/-- and in `improve_embeddings`. -/
theorem C98_improve_embeddings : ∃ I : Input, I.OK ∧ (I.restart [(0, [5])]).OK ∧
    (match improveEmbeddings Demo.sortBySize Demo.cfg Demo.params false I [[(0, [5])]] Demo.tape0 with
      | .ok _ => false
      | .error e => decide (e = .terminated .corrupt)) = true :=
  ⟨Demo.cycleAndEdge, Demo.cycleAndEdge_ok, Demo.Checked.ok (by decide), by decide +kernel⟩

/-- With a connected target and chains that name source and target nodes the chains never
end the process. -/
theorem C98_usable_chains_partial (hs : SortOK sort) (hI : I.OK) (hc : I.Compatible) {cs : List Call}
    (hk : ∀ c ∈ cs, Spec.CallOK I c) (ho : Spec.OnePiece I.tgt)
    (hu : Spec.Usable I (I.fixedC ++ I.initC ++ I.restrC)) (ht : ∀ c, .initial c ∈ cs → Spec.Usable I c)
    {C : Cfg} {A : Params} {ro : Bool} {t : Tape} {e : Halt} (he : session sort C A ro I cs t = .error e) :
    e = .interrupted ∧ A.Halts ∨ e = .terminated .small := by
  refine session_tame hs hI hc hk ho hu ?_ he
  intro c hm
  cases c with
  | find => trivial
  | quick _ _ _ => trivial
  | initial c => exact ⟨ho, ht c hm⟩

example : Spec.OnePiece Demo.path3.tgt ∧ ∀ c, .initial c ∈ Demo.history → Spec.Usable Demo.path3 c := by
  refine ⟨Demo.path3_onePiece, fun c hc => ?_⟩
  simp [Demo.history] at hc
  subst hc
  show ∀ kv ∈ Demo.chains3, _
  decide

/-! ### C99 -/

/-- The claim that the first greedy pass starts from the initial chains fails: a pass that
is refused because of an unknown label counts as the first, and the next one loses the
fixed chain of node 2. -/
theorem C99_first_call : ∃ I : Input, I.OK ∧ (2, [2]) ∈ I.fixedC ∧
    (session Demo.sortBySize Demo.cfg Demo.params false I [.quick Demo.cfg Demo.further (.listed [0, 1])]
      Demo.tape0).toOption = some [.chains [[4], [3], [2]]] ∧
    (session Demo.sortBySize Demo.cfg Demo.params false I
      [.quick Demo.cfg Demo.further .unknown, .quick Demo.cfg Demo.further (.listed [0, 1])]
      Demo.tape0).toOption = some [.unknown, .chains [[4], [3], []]] :=
  ⟨Demo.fixedEnd, Demo.fixedEnd_ok, by simp [Demo.fixedEnd], by decide +kernel, by decide +kernel⟩

/-- The claim that an earlier order cannot be asked for before there is one fails: there
is no exception, and only node 0 is embedded. -/
theorem C99_keep_first : ∃ I : Input, I.OK ∧
    (session Demo.sortBySize Demo.cfg Demo.params false I [.quick Demo.cfg Demo.fresh (.strategy .keep)]
      Demo.tape0).toOption = some [.chains [[4], [], []]] :=
  ⟨Demo.path3, Demo.path3_ok, by decide +kernel⟩

/-- Searches, new initial chains, and greedy passes that allow no overlaps, in any order, each
pass from the initial chains or from the chains of the call before: if no chains are
fixed, the initial chains that are given partly embed the source, and the searches
succeed, then the chains of a pass are connected and disjoint, and joined if their nodes
are neighbours. -/
theorem C99_properly_embedded_partial (hs : SortOK sort) (hI : I.OK) (hc : I.Compatible) (hf : I.fixedC = [])
    (hi : Spec.GoodStart I) {cs : List Call} (hk : ∀ c ∈ cs, Spec.CallOK I c) (hq : ∀ c ∈ cs, Spec.Strict I c)
    {C : Cfg} {A : Params} {ro : Bool} {t : Tape} {rs : List Reply} (h : session sort C A ro I cs t = .ok rs)
    (hn : ∀ ds, .found false ds ∉ rs) {i : Nat} {ds : List (List Nat)} (hr : rs[i]? = some (.chains ds)) :
    Spec.PartlyEmbeds I.src I.tgt ds ∧ ((∀ c ∈ ds, c ≠ []) → Spec.Embeds I.src I.tgt ds) := by
  have h1 := session_spec hs hI hc hk C A ro t
  rw [h] at h1
  obtain ⟨l0, m, m', hm, _, hb, ht⟩ := h1
  have hp : Spec.PartlyEmbeds I.src I.tgt ds := by
    refine ht.tidy hm hf hi ?_ hq hn i ds hr
    have hN := hm.rep.no_fixed hf
    refine Tidy.none hN (hm.plain hf) ?_
    rintro v _ ⟨q, hv⟩
    rw [hb] at hv
    simp [Emb.empty, Chain.empty, Chain.has] at hv
  refine ⟨hp, fun hne => ?_⟩
  refine ⟨hp.size, hne, hp.nodup, hp.nodes, fun u c _ hu => hp.connected c (List.mem_of_getElem? hu), ?_, ?_⟩
  · intro u v c d huv hu hv q hqc hqd
    exact hp.disjoint ⟨u, v, c, d, q, huv, hu, hv, hqc, hqd⟩
  · intro u v c d _ he huv hu hv
    exact hp.edges u v c d he huv hu hv (hne c (List.mem_of_getElem? hu)) (hne d (List.mem_of_getElem? hv))

/-- No chains are given. -/
theorem Spec.GoodStart.none (hf : I.fixedC = []) (hi : I.initC = []) : Spec.GoodStart I := by
  have h : ∀ u c, ¬ Spec.Given I u c := by
    rintro u c ⟨kv, hkv, _⟩
    rw [hf, hi] at hkv
    simp at hkv
  exact ⟨fun u c h1 => absurd h1 (h u c), fun u _ c _ _ h1 => absurd h1 (h u c), fun u _ c _ _ _ h1 => absurd h1 (h u c)⟩

example : (session Demo.sortBySize Demo.cfg Demo.params false Demo.path3
    [.quick Demo.cfg Demo.fresh (.listed [0, 1]), .quick Demo.cfg Demo.further (.listed [2])] Demo.tape0).toOption =
    some [.chains [[4], [3], []], .chains [[4], [3], [2]]] ∧ Spec.GoodStart Demo.path3 :=
  ⟨by decide +kernel, .none rfl rfl⟩

namespace Demo

theorem chains3_connected : Spec.ConnectedIn path3.tgt [1, 2] := by
  have e : path3.tgt.Edge 1 2 := by decide
  intro a ha b hb
  simp only [List.mem_cons, List.not_mem_nil, or_false] at ha hb
  rcases ha with rfl | rfl <;> rcases hb with rfl | rfl
  · exact .refl
  · exact .single ⟨by simp, e⟩
  · exact .single ⟨by simp, e.symm⟩
  · exact .refl

/-- A chain for the middle of the path. -/
def middle : ChainMap := [(1, [1, 2])]

theorem middle_given {u : Nat} {c : List Nat} (h : Spec.Given (path3.restart middle) u c) : u = 1 ∧ c = [1, 2] := by
  obtain ⟨kv, hkv, hu, rfl⟩ := h
  simp [path3, Input.restart, middle] at hkv
  subst hkv
  simp at hu ⊢
  omega

theorem middle_good : Spec.GoodStart (path3.restart middle) := by
  refine ⟨fun u c h => ?_, fun u v c d huv h1 h2 => ?_, fun u v c d _ huv h1 h2 => ?_⟩
  · obtain ⟨_, rfl⟩ := middle_given h
    exact chains3_connected
  · exact absurd ((middle_given h1).1.trans (middle_given h2).1.symm) huv
  · exact absurd ((middle_given h1).1.trans (middle_given h2).1.symm) huv

/-- A search, a chain for the middle, a pass over one end from there, a pass over the other. -/
def mixed : List Call :=
  [.find, .initial middle, .quick cfg fresh (.listed [0]), .quick cfg further (.listed [2])]

end Demo

example : (session Demo.sortBySize Demo.cfg Demo.params false Demo.path3 Demo.mixed Demo.tape0).toOption =
    some [.found true [[2], [3], [4]], .done, .chains [[3], [2, 1], []], .chains [[3], [2, 1], [0]]] ∧
    (∀ c ∈ Demo.mixed, Spec.CallOK Demo.path3 c) ∧ ∀ c ∈ Demo.mixed, Spec.Strict Demo.path3 c := by
  refine ⟨by decide +kernel, ?_, ?_⟩
  · intro c hc
    simp only [Demo.mixed, List.mem_cons, List.not_mem_nil, or_false] at hc
    rcases hc with rfl | rfl | rfl | rfl
    · trivial
    · exact Demo.Checked.ok (by decide)
    · exact ⟨rfl, by decide, by rintro v _ _ w ⟨kv, hkv, _⟩; simp [Demo.path3] at hkv⟩
    · exact ⟨rfl, by decide, by rintro v _ _ w ⟨kv, hkv, _⟩; simp [Demo.path3] at hkv⟩
  · intro c hc
    simp only [Demo.mixed, List.mem_cons, List.not_mem_nil, or_false] at hc
    rcases hc with rfl | rfl | rfl | rfl
    · trivial
    · exact Demo.middle_good
    · rfl
    · rfl

/-! ### C100 -/

/-- A search that starts from an embedding of the caller finds one, with no more of the
longest chains: comparing from the greatest length downwards, the first difference in the
number of chains is in favour of the result. It fails only if stopped at once. -/
theorem C100_restart (hs : SortOK sort) (hI : I.OK) (hc : I.Compatible) {ds : List (List Nat)}
    (hv : Spec.EmbedsUpTo I.FixV I.src I.tgt ds) (hd : Spec.StartsWith I ds) (C : Cfg) (A : Params) (ro : Bool)
    (t : Tape) :
    (∃ cs, findEmbedding sort C A ro I t = .ok (true, cs) ∧ Spec.EmbedsUpTo I.FixV I.src I.tgt cs ∧
      Spec.NoLonger cs ds) ∨
    (∃ cs, findEmbedding sort C A ro I t = .ok (false, cs) ∧ ((A.stops 0).1 = true ∨ (A.stops 0).2 = true)) ∨
    (findEmbedding sort C A ro I t = .error .cancelled ∧ A.Halts) ∨
    findEmbedding sort C A ro I t = .error .corrupt ∨ findEmbedding sort C A ro I t = .error .small :=
  findEmbedding_restart hs hI hc hv hd C A ro t

/-- The chains of `Demo.chains3` are an embedding of the path. -/
theorem Demo.chains3_embeds : Spec.EmbedsUpTo Demo.path3.FixV Demo.path3.src Demo.path3.tgt [[0], [1, 2], [3]] := by
  have hj : ∀ {a b : Nat} {c d : List Nat}, a ∈ c → b ∈ d → Demo.path3.tgt.Edge a b → Spec.Joined Demo.path3.tgt c d :=
    fun ha hb he => ⟨_, ha, _, hb, he⟩
  refine ⟨rfl, by decide, by decide, by decide, ?_, ?_, ?_⟩
  · intro u c _ hu a ha b hb
    have hc : c = [0] ∨ c = [1, 2] ∨ c = [3] := by simpa using List.mem_of_getElem? hu
    rcases hc with rfl | rfl | rfl
    · simp only [List.mem_singleton] at ha hb; subst ha; subst hb; exact .refl
    · have e : Demo.path3.tgt.Edge 1 2 := by decide
      simp only [List.mem_cons, List.not_mem_nil, or_false] at ha hb
      rcases ha with rfl | rfl <;> rcases hb with rfl | rfl
      · exact .refl
      · exact .single ⟨by simp, e⟩
      · exact .single ⟨by simp, e.symm⟩
      · exact .refl
    · simp only [List.mem_singleton] at ha hb; subst ha; subst hb; exact .refl
  · intro u v c d huv hu hv q hq hq'
    match u, v with
    | 0, 0 => exact huv rfl
    | 1, 1 => exact huv rfl
    | 2, 2 => exact huv rfl
    | 0, 1 => simp at hu hv; subst hu; subst hv; simp at hq hq'; omega
    | 0, 2 => simp at hu hv; subst hu; subst hv; simp at hq hq'; omega
    | 1, 0 => simp at hu hv; subst hu; subst hv; simp at hq hq'; omega
    | 1, 2 => simp at hu hv; subst hu; subst hv; simp at hq hq'; omega
    | 2, 0 => simp at hu hv; subst hu; subst hv; simp at hq hq'; omega
    | 2, 1 => simp at hu hv; subst hu; subst hv; simp at hq hq'; omega
    | u + 3, _ => simp at hu
    | _, v + 3 => simp at hv
  · intro u v c d _ he _ hu hv
    have he : (u, v) ∈ Demo.path3.src.edges ∨ (v, u) ∈ Demo.path3.src.edges := he
    simp only [Demo.path3, List.mem_cons, Prod.mk.injEq, List.not_mem_nil, or_false] at he
    rcases he with (⟨rfl, rfl⟩ | ⟨rfl, rfl⟩) | ⟨rfl, rfl⟩ | ⟨rfl, rfl⟩ <;> simp at hu hv <;> subst hu <;> subst hv
    · exact hj (a := 0) (b := 1) (by simp) (by simp) (by decide)
    · exact hj (a := 2) (b := 3) (by simp) (by simp) (by decide)
    · exact hj (a := 1) (b := 0) (by simp) (by simp) (by decide)
    · exact hj (a := 3) (b := 2) (by simp) (by simp) (by decide)

theorem Demo.chains3_starts : Spec.StartsWith (Demo.path3.restart Demo.chains3) [[0], [1, 2], [3]] := by
  intro u c hu
  match u with
  | 0 => simp at hu; subst hu; exact ⟨(0, [0]), by decide, rfl, rfl⟩
  | 1 => simp at hu; subst hu; exact ⟨(1, [1, 2]), by decide, rfl, rfl⟩
  | 2 => simp at hu; subst hu; exact ⟨(2, [3]), by decide, rfl, rfl⟩
  | u + 3 => simp at hu

/-- It starts with a chain of two nodes, and ends with none. -/
example : (findEmbedding Demo.sortBySize Demo.cfg Demo.params false (Demo.path3.restart Demo.chains3) Demo.tape0).toOption =
    some (true, [[0], [1], [2]]) ∧ Spec.Shorter [[0], [1], [2]] [[0], [1, 2], [3]] :=
  ⟨by decide +kernel, 2, by decide, fun j hj => by
    simp only [Spec.chainsWith, List.countP_cons, List.countP_nil, List.length_cons, List.length_nil, beq_iff_eq]
    have h1 : ¬ 0 + 1 = j := by omega
    have h2 : ¬ 0 + 1 + 1 = j := by omega
    simp [h1, h2]⟩

/-! ### C101 -/

/-- The claim that `force` counts successes only fails with `return_overlap`: here both
results have overlaps. -/
theorem C101_counts_failures : ∃ (I : Input) (cs : List (List Nat)), I.OK ∧ Spec.Overlaps cs ∧
    (findEmbeddings Demo.sortBySize Demo.cfg Demo.params true true I 5 2 Demo.tape0).toOption = some [cs, cs] :=
  ⟨Demo.triangle, [[1], [2], [3, 2]], Demo.triangle_ok, ⟨1, 2, _, _, 2, by decide, rfl, rfl, by decide, by decide⟩,
    by decide +kernel⟩

/-- Without `return_overlap` all results are embeddings, at most `n` of them, and exactly
`n` with `force`; without `force` there are at most `n` rounds. -/
theorem C101_embeddings_partial (hs : SortOK sort) (hI : I.OK) (hc : I.Compatible) (C : Cfg) (A : Params) (force : Bool)
    (fuel n : Nat) (t : Tape) :
    match findEmbeddings sort C A false force I fuel n t with
    | .ok es => es.length ≤ n ∧ (force = true → es.length = n) ∧ ∀ e ∈ es, Spec.EmbedsUpTo I.FixV I.src I.tgt e
    | .error e => e = .interrupted ∧ A.Halts ∨ e = .raised .badInit ∨ e = .terminated .corrupt ∨
        e = .terminated .small ∨ e = .endless ∧ (fuel < n ∨ force = true) := by
  unfold findEmbeddings
  have h1 := make_spec hs hI (i := A.Halts) t
  simp only [bind, Except.bind]
  cases hm : Miner.make sort I t with
  | error e =>
    rw [hm] at h1
    rcases h1 with h1 | ⟨h1 | h1, _⟩
    · exact Or.inl h1
    · exact Or.inr (Or.inr (Or.inl h1))
    · exact Or.inr (Or.inr (Or.inr (Or.inl h1)))
  | ok m =>
    rw [hm] at h1
    obtain ⟨⟨l0, h1⟩, _⟩ := h1
    have h2 := several_spec (C := C) (A := A) (ro := false) (force := force) hc fuel n h1
    dsimp only
    cases hl : m.several C A false force fuel n with
    | error e =>
      rw [hl] at h2
      rcases h2 with h2 | h2 | ⟨h2, h3⟩
      · exact Or.inl h2
      · exact Or.inr (Or.inl h2)
      · exact Or.inr (Or.inr (Or.inr (Or.inr ⟨h2, h3.imp_right (fun h => h.1)⟩)))
    | ok s =>
      rw [hl] at h2
      exact ⟨h2.1, fun hf => h2.2.1 (Or.inl hf), fun e he => (h2.2.2 e he).1 rfl⟩

/-- If there is no embedding, `force` never lets the call return, whatever the number of
rounds. -/
theorem C101_force_never_returns (hs : SortOK sort) (hI : I.OK) (hc : I.Compatible)
    (hno : ¬ ∃ e, Spec.EmbedsUpTo I.FixV I.src I.tgt e) (C : Cfg) (A : Params) {n : Nat} (hn : 0 < n) (fuel : Nat)
    (t : Tape) (es : List (List (List Nat))) : findEmbeddings sort C A false true I fuel n t ≠ .ok es := by
  intro h
  have h1 := C101_embeddings_partial hs hI hc C A true fuel n t
  rw [h] at h1
  obtain ⟨_, h2, h3⟩ := h1
  cases es with
  | nil => have := h2 rfl; simp at this; omega
  | cons e es => exact hno ⟨e, h3 e (by simp)⟩

example : (findEmbeddings Demo.sortBySize Demo.cfg Demo.params false true Demo.path3 5 2 Demo.tape0).toOption =
    some [[[2], [3], [4]], [[2], [3], [4]]] ∧
    (findEmbeddings Demo.sortBySize Demo.cfg Demo.params false false Demo.triangle 5 2 Demo.tape0).toOption = some [] := by
  decide +kernel

/-- A triangle cannot be embedded in a path of three nodes. -/
example : ∃ I : Input, I.OK ∧ I.Compatible ∧ (¬ ∃ e, Spec.EmbedsUpTo I.FixV I.src I.tgt e) ∧
    (match findEmbeddings Demo.sortBySize Demo.cfg Demo.params false true I 3 1 Demo.tape0 with
      | .ok _ => false
      | .error e => decide (e = .endless)) = true := by
  refine ⟨⟨⟨3, [(0, 1), (1, 2), (2, 0)]⟩, ⟨3, [(0, 1), (1, 2)]⟩, [], [], []⟩, Demo.Checked.ok (by decide),
    Input.compatible_of_nil rfl, ?_, by decide +kernel⟩
  rintro ⟨e, he⟩
  have hl := he.size
  match e, hl with
  | [c, d, f], _ =>
    have one : ∀ {a b : List Nat}, Spec.Joined ⟨3, [(0, 1), (1, 2)]⟩ a b → 1 ∈ a ∨ 1 ∈ b := by
      rintro a b ⟨x, hx, y, hy, h⟩
      have h : (x, y) ∈ [(0, 1), (1, 2)] ∨ (y, x) ∈ [(0, 1), (1, 2)] := h
      simp only [List.mem_cons, Prod.mk.injEq, List.not_mem_nil, or_false] at h
      rcases h with (⟨rfl, rfl⟩ | ⟨rfl, rfl⟩) | ⟨rfl, rfl⟩ | ⟨rfl, rfl⟩ <;> simp_all
    have fx : ∀ u v, ¬ (Input.FixV ⟨⟨3, [(0, 1), (1, 2), (2, 0)]⟩, ⟨3, [(0, 1), (1, 2)]⟩, [], [], []⟩ u ∧
        Input.FixV ⟨⟨3, [(0, 1), (1, 2), (2, 0)]⟩, ⟨3, [(0, 1), (1, 2)]⟩, [], [], []⟩ v) := by
      rintro u v ⟨⟨kv, hkv, _⟩, _⟩
      simp at hkv
    have e1 := one (he.edges 0 1 c d (fx _ _) (by decide) (by decide) rfl rfl)
    have e2 := one (he.edges 1 2 d f (fx _ _) (by decide) (by decide) rfl rfl)
    have e3 := one (he.edges 2 0 f c (fx _ _) (by decide) (by decide) rfl rfl)
    have d1 := he.disjoint 0 1 c d (by decide) rfl rfl 1
    have d2 := he.disjoint 1 2 d f (by decide) rfl rfl 1
    have d3 := he.disjoint 2 0 f c (by decide) rfl rfl 1
    tauto

/-! ### C102 -/

/-- `improve_embeddings` gives one result for each set of chains. Without `return_overlap`
it is nothing or an embedding; if the chains form an embedding and the search cannot be
stopped, it is an embedding with no longer chains. Chains that name existing nodes of a
connected target do not end the process. -/
theorem C102_improve_embeddings (hs : SortOK sort) (hI : I.OK) (hc : I.Compatible) {cs : List ChainMap}
    (hk : ∀ c ∈ cs, (I.restart c).OK) (C : Cfg) (A : Params) (ro : Bool) (t : Tape) :
    match improveEmbeddings sort C A ro I cs t with
    | .ok es => es.length = cs.length ∧
        ∀ (i : Nat) (c : ChainMap) (e : List (List Nat)), cs[i]? = some c → es[i]? = some e →
          (ro = false → e = [] ∨ Spec.EmbedsUpTo I.FixV I.src I.tgt e) ∧ (ro = true → Spec.Lists I e) ∧
          ∀ ds, Spec.EmbedsUpTo I.FixV I.src I.tgt ds → Spec.StartsWith (I.restart c) ds → ¬ A.Stops →
            Spec.EmbedsUpTo I.FixV I.src I.tgt e ∧ Spec.NoLonger e ds
    | .error e => e = .interrupted ∧ A.Halts ∨ e = .raised .badInit ∨ e = .terminated .small ∨
        e = .terminated .corrupt ∧ ¬ (Spec.OnePiece I.tgt ∧
          Spec.Usable I (I.fixedC ++ I.initC ++ I.restrC) ∧ ∀ c ∈ cs, Spec.Usable I c) := by
  unfold improveEmbeddings
  have h1 := make_spec hs hI (i := A.Halts) t
  simp only [bind, Except.bind]
  cases hm : Miner.make sort I t with
  | error e =>
    rw [hm] at h1
    rcases h1 with h1 | ⟨rfl | h1, _⟩
    · exact Or.inl h1
    · refine Or.inr (Or.inr (Or.inr ⟨rfl, ?_⟩))
      rintro ⟨ho, hu, _⟩
      exact make_usable hs hI ho hu t hm
    · exact Or.inr (Or.inr (Or.inl h1))
  | ok m =>
    rw [hm] at h1
    obtain ⟨⟨l0, h1⟩, _⟩ := h1
    have h2 := improve_spec (C := C) (A := A) (ro := ro) cs h1 hc hk
      (k := ¬ (Spec.OnePiece I.tgt ∧ ∀ c ∈ cs, Spec.Usable I c)) (by
        by_cases hh : Spec.OnePiece I.tgt ∧ ∀ c ∈ cs, Spec.Usable I c
        · exact Or.inr (fun c hc => ⟨hh.1, hh.2 c hc⟩)
        · exact Or.inl hh)
    dsimp only
    cases hl : m.improve C A ro cs with
    | error e =>
      rw [hl] at h2
      rcases h2 with h2 | h2 | ⟨h2 | h2, h3⟩
      · exact Or.inl h2
      · exact Or.inr (Or.inl h2)
      · exact Or.inr (Or.inr (Or.inr ⟨h2, fun h => h3 ⟨h.1, h.2.2⟩⟩))
      · exact Or.inr (Or.inr (Or.inl h2))
    | ok s =>
      rw [hl] at h2
      exact h2

example : (improveEmbeddings Demo.sortBySize Demo.cfg Demo.params false Demo.path3
    [Demo.chains3, [(0, [0]), (1, [1]), (2, [2])]] Demo.tape0).toOption =
    some [[[0], [1], [2]], [[0], [1], [2]]] ∧ (Demo.path3.restart Demo.chains3).OK ∧
    Spec.EmbedsUpTo Demo.path3.FixV Demo.path3.src Demo.path3.tgt [[0], [1, 2], [3]] ∧
    Spec.StartsWith (Demo.path3.restart Demo.chains3) [[0], [1, 2], [3]] :=
  ⟨by decide +kernel, Demo.restart_ok, Demo.chains3_embeds, Demo.chains3_starts⟩

end MM
