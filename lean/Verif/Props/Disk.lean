import Verif.Cache.DiskRef

/-! C40, C41, C42: the cache on disk. -/

namespace MM

open Cache Disk

section
variable {C I V : Type} [DecidableEq C] [DecidableEq I]

/-- C42: calls one after another, from an empty directory. After them the list on disk names the `limit` codes used last, the last used first, there is a file for each of them, and there is no other file of a code. -/
theorem C42_lru {limit : Nat} (hlim : 0 < limit) {rs : List (Req C I V)} (hc : ∀ r ∈ rs, r.compute ≠ none) (hne : rs ≠ []) :
    (execAll limit rs Dir.empty).2.look .lru = some (.codes ((rs.map Req.code).dedup.reverse.take limit)) ∧
    (∀ c, (execAll limit rs Dir.empty).2.look (.file c) ≠ none ↔ c ∈ (rs.map Req.code).dedup.reverse.take limit) ∧
    ((rs.map Req.code).dedup.reverse.take limit).length ≤ limit := by
  obtain ⟨_, h⟩ := execAll_holds (rs := rs) hlim (holds_empty limit)
  have hk := serveAll_keys (limit := limit) hc (st := []) (h := []) (by simp)
  rw [List.nil_append] at hk
  refine ⟨?_, ?_, by rw [List.length_take]; omega⟩
  · rcases h.codes with h1 | ⟨_, h1⟩
    · rw [h1, hk]
    · exfalso
      rw [h1] at hk
      have h2 : ((rs.map Req.code).dedup.reverse.take limit) = [] := hk.symm
      obtain ⟨n, rfl⟩ : ∃ n, limit = n + 1 := ⟨limit - 1, by omega⟩
      rw [List.take_eq_nil_iff] at h2
      rcases h2 with h2 | h2
      · omega
      · cases rs with
        | nil => exact hne rfl
        | cons r rs =>
          have : r.code ∈ ((r :: rs).map Req.code).dedup.reverse := by simp
          rw [h2] at this; cases this
  · intro c
    rw [h.files, ← hk, ← dget_isSome]
    cases dget (serveAll limit [] rs).2 c <;> simp

/-- C42, the results: the calls behave as if the caches were kept in a list, the last used first, of which at most `limit` are kept: a call that is not forced takes the cache that is there, and otherwise computes and keeps it (`serve`). -/
theorem C42_results {limit : Nat} (hlim : 0 < limit) (rs : List (Req C I V)) : (execAll limit rs (Dir.empty : Dir C I V)).1 = (serveAll limit [] rs).1 :=
  (execAll_holds hlim (holds_empty limit)).1

/-- C40 is false of the code, whatever the limit: when the cache is full, a process that is killed right after the removal of the oldest file leaves the list as it was. From then on every call for a graph that is not in the list
tries to remove that file again and raises `FileNotFoundError`. -/
theorem C40_broken {limit : Nat} (hlim : 0 < limit) {rs : List (Req C I V)} (hc : ∀ r ∈ rs, r.compute ≠ none) (hfull : limit ≤ (rs.map Req.code).dedup.length) {r : Req C I V} (hr : r.code ∉ rs.map Req.code) (hrc : r.compute ≠ none)
    {later : List (Req C I V)} (hl : ∀ q ∈ later, q.code ∉ rs.map Req.code ∧ q.compute ≠ none) :
    ∀ x ∈ (execAll limit later (execN 6 (fetch limit r) (execAll limit rs Dir.empty).2)).1, x = .error .notFound := by
  obtain ⟨_, h⟩ := execAll_holds (rs := rs) hlim (holds_empty limit)
  have hk := serveAll_keys (limit := limit) hc (st := []) (h := []) (by simp)
  rw [List.nil_append] at hk
  have hsub : ∀ c ∈ (serveAll limit [] rs).2.map Prod.fst, c ∈ rs.map Req.code := by
    intro c hc
    rw [hk] at hc
    have := List.mem_of_mem_take hc
    rwa [List.mem_reverse, List.mem_dedup] at this
  have hlen : (serveAll limit [] rs).2.length = limit := by
    rw [← List.length_map (f := Prod.fst), hk, List.length_take, List.length_reverse]; omega
  obtain ⟨front, c, hst⟩ : ∃ front c, (serveAll limit [] rs).2.map Prod.fst = front ++ [c] := by
    have : (serveAll limit [] rs).2.map Prod.fst ≠ [] := by
      intro e
      have := congrArg List.length e
      rw [List.length_map] at this
      simp only [List.length_nil] at this
      omega
    exact ⟨_, _, (List.dropLast_append_getLast this).symm⟩
  obtain ⟨d', e, w, h1, h2, h3⟩ := killed_evicting h hlen hst (r := r) (fun hm => hr (hsub _ hm)) hrc
  rw [e]
  refine execAll_stuck ?_ (fun q hq => ⟨fun hm => (hl q hq).1 (hsub _ (by rw [hst]; exact hm)), (hl q hq).2⟩) w h1 h2 h3
  have := congrArg List.length hst
  rw [List.length_map, List.length_append] at this
  simp only [List.length_cons, List.length_nil] at this
  omega

/-- Calls one after another; the `n`-th operation of a call with `some n` is its last one, because its process is killed. The results of the others. -/
def Disk.history (limit : Nat) : List (Req C I V × Option Nat) → Dir C I V → List (Req C I V × Except Exn V)
  | [], _ => []
  | (r, none) :: h, d => (r, (exec (fetch limit r) d).1) :: history limit h (exec (fetch limit r) d).2
  | (r, some n) :: h, d => history limit h (execN n (fetch limit r) d)

/-- No process is killed in a call that has already removed a file. -/
def Disk.NotEvicting (limit : Nat) : List (Req C I V × Option Nat) → Dir C I V → Prop
  | [], _ => True
  | (r, none) :: h, d => NotEvicting limit h (exec (fetch limit r) d).2
  | (r, some n) :: h, d => evicts n (fetch limit r) d = false ∧ NotEvicting limit h (execN n (fetch limit r) d)

/-- C40, except for what `C40_broken` refutes: with kills at any points but those between the removal of a file and the renaming of the list, every call that is not killed returns a cache that was computed for its graph, unless its own
computation raises. -/
theorem C40_partial {limit : Nat} (hlim : 0 < limit) {h : List (Req C I V × Option Nat)} (hq : NotEvicting limit h Dir.empty) :
    ∀ z ∈ history limit h Dir.empty, (∃ v, z.2 = .ok v ∧ ∃ q ∈ h, q.1.code = z.1.code ∧ q.1.id = z.1.id ∧ q.1.compute = some v) ∨ (z.2 = .error .compute ∧ z.1.compute = none) := by
  let P : C → I → V → Prop := fun c i v => ∃ q ∈ h, q.1.code = c ∧ q.1.id = i ∧ q.1.compute = some v
  have key : ∀ (t : List (Req C I V × Option Nat)) (d : Dir C I V), (∀ q ∈ t, q ∈ h) → Sound limit P d → NotEvicting limit t d → ∀ z ∈ history limit t d, (∃ v, z.2 = .ok v ∧ P z.1.code z.1.id v) ∨ (z.2 = .error .compute ∧ z.1.compute = none) := by
    intro t
    induction t with
    | nil => intro d _ _ _ z hz; cases hz
    | cons p t ih =>
      obtain ⟨r, o⟩ := p
      intro d ht hs hq
      rw [List.forall_mem_cons] at ht
      obtain ⟨k, hk, hg⟩ := good_body (r := r) hlim (P := P) (fun v hv => ⟨_, ht.1, rfl, rfl, hv⟩) hs
      cases o with
      | none =>
        have hx : exec (fetch limit r) d = exec (k .ok) d := by rw [hk]; rfl
        rw [NotEvicting, hx] at hq
        obtain ⟨h1, h2⟩ := good_exec hg
        intro z hz
        rw [history, hx, List.mem_cons] at hz
        rcases hz with rfl | hz
        · exact h2
        · exact ih _ ht.2 h1 hq z hz
      | some n =>
        refine ih _ ht.2 ?_ hq.2
        cases n with
        | zero => rw [execN]; exact hs; all_goals simp
        | succ n =>
          have he := hq.1
          rw [hk] at he ⊢
          rw [execN]
          rw [evicts] at he
          exact good_execN hg (by simpa [Op.isRemove] using he)
  exact key h Dir.empty (fun _ hq => hq) (sound_empty limit P) hq

/-- C41, except for what `C41_fails` and `C41_corrupt` refute: any number of calls on the same directory, in any order of their operations and with processes killed, as long as no call takes the locks while another one still has to rename its
files, and no process is killed in a call that has removed a file. Every call that has ended returned a cache computed for its graph, unless its own computation raised or its process was killed. -/
theorem C41_partial {limit : Nat} (hlim : 0 < limit) {rs : Nat → Req C I V} {es : List Event} (hq : AllQuiet (Sys.start limit rs Dir.empty) es) (i : Nat) :
    (∀ v, (es.foldl Sys.event (Sys.start limit rs Dir.empty)).prog i = .ret v → ∃ j, (rs j).code = (rs i).code ∧ (rs j).id = (rs i).id ∧ (rs j).compute = some v) ∧
    (∀ e, (es.foldl Sys.event (Sys.start limit rs Dir.empty)).prog i = .raise e → (e = .compute ∧ (rs i).compute = none) ∨ e = .killed) := by
  have h := events_inv (P := fun c k v => ∃ j, (rs j).code = c ∧ (rs j).id = k ∧ (rs j).compute = some v) hlim (fun j v hv => ⟨j, rfl, rfl, hv⟩) (s := Sys.start limit rs Dir.empty) (.inl ⟨rfl, sound_empty _ _, fun i => .inl ⟨rfl, rfl⟩⟩) hq
  generalize es.foldl Sys.event (Sys.start limit rs Dir.empty) = s at h ⊢
  have hrest : ∀ {i}, Rest limit (fun c k v => ∃ j, (rs j).code = c ∧ (rs j).id = k ∧ (rs j).compute = some v) rs s i →
      (∀ v, s.prog i = .ret v → ∃ j, (rs j).code = (rs i).code ∧ (rs j).id = (rs i).id ∧ (rs j).compute = some v) ∧ (∀ e, s.prog i = .raise e → (e = .compute ∧ (rs i).compute = none) ∨ e = .killed) := by
    intro i h
    rcases h with ⟨h, _⟩ | ⟨v, h, hv⟩ | ⟨h, hv⟩ | h
    · rw [h]; exact ⟨fun _ h => (by cases h), fun _ h => (by cases h)⟩
    · rw [h]; exact ⟨fun _ h => (by cases h; exact hv), fun _ h => (by cases h)⟩
    · rw [h]; exact ⟨fun _ h => (by cases h), fun _ h => (by cases h; exact .inl ⟨rfl, hv⟩)⟩
    · rw [h]; exact ⟨fun _ h => (by cases h), fun _ h => (by cases h; exact .inr rfl)⟩
  rcases h with ⟨_, _, h3⟩ | ⟨a, ha, hr⟩
  · exact hrest (h3 i)
  · by_cases hi : i = a
    · subst hi
      obtain ⟨hl, hg, _, h5, h6⟩ := ha
      have : ∃ o k, s.prog i = .op o k := by
        cases hl with
        | true => exact h5 rfl
        | false => obtain ⟨x, y, k, h⟩ := h6 rfl; exact ⟨_, k, h⟩
      obtain ⟨o, k, h⟩ := this
      rw [h]; exact ⟨fun _ h => (by cases h), fun _ h => (by cases h)⟩
    · exact hrest (hr i hi)

end

/-- How a call ended. -/
def Disk.outcome {C I V : Type} : Prog C I V → Option (Except Exn V)
  | .ret v => some (.ok v)
  | .raise e => some (.error e)
  | .op _ _ => none

/-- A request for graph number `i`. -/
def req (i : Nat) : Req Nat Nat String := ⟨i, i, false, some "cache"⟩

/-- `n` operations of call `i`. -/
def ops (i n : Nat) : List Event := List.replicate n (.step i)

/-- C41 is false of the code, even if no process is killed: the locks are released before the temporary files are renamed, and the temporary file of the list has the same name for all. Two processes ask for two graphs; the first one renames the
temporary file that the second one is going to rename, so that the second call raises `FileNotFoundError`. -/
theorem C41_fails : outcome (((ops 0 8 ++ ops 1 8 ++ ops 0 2 ++ ops 1 2).foldl Sys.event (Sys.start 100 req Dir.empty)).prog 1) = some (.error .notFound) ∧
    outcome (((ops 0 8 ++ ops 1 8 ++ ops 0 2 ++ ops 1 2).foldl Sys.event (Sys.start 100 req Dir.empty)).prog 0) = some (.ok "cache") := by
  decide +kernel

/-- The second process opens the temporary file again that the first one has not yet renamed, and is killed; the first one renames it. The list is then cut short, and the call of a third process (as any other) fails when it reads it. -/
theorem C41_corrupt : outcome (((ops 0 8 ++ ops 1 6 ++ ops 0 2 ++ [Event.crash 1] ++ ops 2 7).foldl Sys.event (Sys.start 100 req Dir.empty)).prog 2) = some (.error .corrupt) := by
  decide +kernel

/-- One process after the other is quiet, and both calls end. -/
example : outcome (((ops 0 10 ++ ops 1 10).foldl Sys.event (Sys.start 100 req Dir.empty)).prog 1) = some (.ok "cache") := by decide +kernel

/-- A schedule in which the second call waits for the first. -/
example : AllQuiet (Sys.start 100 req Dir.empty) [.step 0, .step 1, .step 0, .crash 1] := by
  refine ⟨fun _ j a b k h => (by cases h), fun _ j a b k h => ?_, fun h => ?_, fun h => (by cases h), trivial⟩
  · by_cases hj : j = 0
    · subst hj; cases h
    · have : ((Sys.start 100 req Dir.empty).event (.step 0)).prog j = fetch 100 (req j) := by
        simp [Sys.event, Sys.start, fetch, Sys.go, hj]
      rw [this] at h; cases h
  · obtain ⟨k, h⟩ := h; cases h

/-- The cache of 100 graphs is full; the call for graph 100 is killed after the removal; those for graphs 100 to 102 fail. -/
example : ∀ x ∈ (execAll 100 [req 100, req 101, req 102] (execN 6 (fetch 100 (req 100)) (execAll 100 ((List.range 100).map req) Dir.empty).2)).1, x = .error .notFound :=
  C40_broken (by decide) (by simp [req]) (by decide +kernel) (by decide +kernel) (by decide) (by decide +kernel)

/-- Kills that do no harm: the call for graph 1 is killed when it has written the temporary file of its caches, and the next call for it computes again. -/
example : NotEvicting 2 [(req 0, none), (req 1, some 4), (req 1, none), (req 0, some 9), (req 0, none)] Dir.empty ∧
    (history 2 [(req 0, none), (req 1, some 4), (req 1, none), (req 0, some 9), (req 0, none)] Dir.empty).map (fun z => z.2) = [.ok "cache", .ok "cache", .ok "cache"] := by
  refine ⟨⟨?_, ?_, trivial⟩, ?_⟩ <;> decide +kernel

/-- Three graphs, of which two are kept. -/
example : (execAll 2 [req 0, req 1, req 0, req 2] Dir.empty).2.look .lru = some (.codes [2, 0]) ∧ (execAll 2 [req 0, req 1, req 0, req 2] Dir.empty).2.look (.file 1) = none := by decide +kernel

end MM
