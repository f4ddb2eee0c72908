import Verif.Py.Diag

/-! Model of minorminer/utils/parallel_embeddings.py. -/

namespace MM
namespace Py

variable {α β τ : Type} [DecidableEq α] [DecidableEq β] [DecidableEq τ]

/-- A value of an embedding: a target node, or a chain as a tuple or as a list. Nodes are taken to be neither
iterable nor equal to tuples of nodes. -/
inductive Val (β : Type) where
  | one (n : β)
  | tup (ns : List β)
  | lst (ns : List β)
  deriving DecidableEq, Repr

/-- The target nodes of a value. -/
def Val.nodes : Val β → List β
  | .one n => [n]
  | .tup ns => ns
  | .lst ns => ns

/-- A node, or a chain. -/
def Val.isChain : Val β → Bool
  | .one _ => false
  | _ => true

/-- An embedding as the list of its items. -/
abbrev Emb (α β : Type) := List (α × Val β)

/-- All target nodes used. -/
def Emb.used (e : Emb α β) : List β := e.flatMap fun kv => kv.2.nodes

/-- Exceptions. -/
inductive PErr where
  | zeroDiv
  | type
  | value
  | key
  | index
  deriving DecidableEq, Repr

/-- The labels `remove_nodes_from` gets to see for one value (parallel_embeddings.py 250-253): `iter` is
`one_to_iterable`. A tuple is not a node and so ignored; a list is not hashable and a node not iterable. -/
def Val.removal (iter : Bool) : Val β → Except PErr (List β)
  | .one n => if iter then .error .type else .ok [n]
  | .tup ns => if iter then .ok ns else .ok []
  | .lst ns => if iter then .ok ns else .error .type

/-- The labels removed for an embedding. -/
def Emb.removal (iter : Bool) : Emb α β → Except PErr (List β)
  | [] => .ok []
  | kv :: e =>
    match kv.2.removal iter with
    | .error x => .error x
    | .ok ns =>
      match Emb.removal iter e with
      | .error x => .error x
      | .ok ms => .ok (ns ++ ms)

/-- What surrounds a search: the filter, the clock (`late k`: the time is up at the `k`th look) and the embedder's
answer at the `k`th call. -/
structure Env (α β : Type) where
  filter : Graph α → Graph β → Bool → Bool
  late : Nat → Bool
  embedder : Nat → Graph α → Graph β → Emb α β

/-- Result of a search with what has become of the caller's graph. -/
abbrev Outcome (α β : Type) := Except PErr (List (Emb α β)) × Graph β

/-- The loop of `find_multiple_embeddings` (parallel_embeddings.py 233-255). `T` is the caller's graph and `cur` the
graph searched, `none` if it is the caller's own object. `m` is the limit. -/
def multiLoop (E : Env α β) (S : Graph α) (useFilter iter : Bool) (m : Int) :
    Nat → Nat → Graph β → Option (Graph β) → List (Emb α β) → Outcome α β
  | 0, _, T, _, embs => (.ok embs, T)
  | r + 1, k, T, cur, embs =>
    let G := cur.elim T id
    if useFilter && !E.filter S G (!iter) then (.ok embs, T)
    else if E.late k then (.ok embs, T)
    else
      let emb := E.embedder k S G
      if emb = [] then (.ok embs, T)
      else if 1 < m then
        let cur := if embs = [] then some T else cur
        match emb.removal iter with
        | .error x => (.error x, T)
        | .ok ns =>
          match cur with
          | some H => multiLoop E S useFilter iter m r (k + 1) T (some (H.remove ns)) (embs ++ [emb])
          | none => multiLoop E S useFilter iter m r (k + 1) (T.remove ns) none (embs ++ [emb])
      else multiLoop E S useFilter iter m r (k + 1) T cur (embs ++ [emb])

/-- `find_multiple_embeddings` (parallel_embeddings.py 196-256). `start` says whether `timeout > 0`; `limit` is
`max_num_emb`, rounded; `shuf` is `shuffle_graph` for `S` and `T` if asked for. -/
def findMultiple (E : Env α β) (S : Graph α) (T : Graph β) (start : Bool) (limit : Option Int) (useFilter iter : Bool)
    (shuf : Option (Graph α × Graph β)) : Outcome α β :=
  if start = false then (.ok [], T)
  else if S.nodes.length = 0 then (.error .zeroDiv, T)
  else
    let most : Int := (T.nodes.length / S.nodes.length : Nat)
    let m := limit.elim most (min most)
    let S' := shuf.elim S Prod.fst
    multiLoop E S' useFilter iter m m.toNat 0 T (shuf.map Prod.snd) []

/-- The chains of an embedding as `_is_valid_embedding` passes them on (parallel_embeddings.py 282-291): with
`iter` the values themselves, otherwise one-element tuples. (A chain where a node is expected is no target node, so the
answer is `False`; here it is no chain, with the same answer. A node where a chain is expected, an error in Python, is
taken as a chain of one.) -/
def Emb.chains (iter : Bool) (e : Emb α β) (x : α) : Option (List β) :=
  match e.lookup x with
  | none => none
  | some v => if iter then some v.nodes else (match v with | .one n => some [n] | _ => some [])

/-- A value under a sublattice mapping. -/
def Val.mapped (iter : Bool) (f : τ → β) : Val τ → Val β
  | .one n => if iter then .tup [f n] else .one (f n)
  | .tup ns => .tup (ns.map f)
  | .lst ns => .tup (ns.map f)

/-- `_mapped_proposal` (parallel_embeddings.py 294-298). (Values not of the kind announced are errors in Python.) -/
def Emb.mapped (iter : Bool) (f : τ → β) (e : Emb α τ) : Emb α β := e.map fun kv => (kv.1, kv.2.mapped iter f)

/-- Arguments of `find_sublattice_embeddings` and what is looked up on the way. -/
structure SubArgs (α β τ : Type) where
  S : Graph α
  T : Graph β
  /-- `timeout > 0` -/
  start : Bool
  /-- the tile, given or generated; `none` if neither tile nor size is given -/
  tile : Option (Graph τ)
  /-- `max_num_emb` -/
  limit : Option Int
  useFilter : Bool
  iter : Bool
  /-- `max_num_emb == 1`, no seed and no `T_family` (parallel_embeddings.py 449) -/
  inPlace : Bool
  /-- the bound or the filter rejects the tile (lines 445-499) -/
  infeasible : Bool
  /-- `tile == S`, the same object, and then the 1:1 map (lines 512-519) -/
  same : Option (Emb α τ)
  tileEmb : Option (Emb α τ)
  useTile : Option Bool
  /-- the sublattice mappings of the (restricted) tile, in the order they are tried -/
  maps : Graph τ → Graph β → List (τ → β)
  /-- time is up before the `j`th sublattice -/
  lateAt : Nat → Bool
  /-- there is time left when the search on the tile, or on the `j`th sublattice, is called -/
  freshTile : Bool
  fresh : Nat → Bool
  /-- what surrounds the search on the tile and, for the `j`th sublattice, the search there -/
  envTile : Env α τ
  env : Nat → Env α β
  ordQ : List β → List β
  ordX : List α → List α
  ordT : List τ → List τ

/-- The embeddings found on one sublattice (parallel_embeddings.py 570-587). -/
def subSearch (A : SubArgs α β τ) (tile : Graph τ) (tileEmb : Option (Emb α τ)) (uf : Bool) (m : Int) (f : τ → β) (j : Nat) (G : Graph β)
    (embs : List (Emb α β)) : Except PErr (List (Emb α β)) :=
  match tileEmb with
  | some te =>
    let p := te.mapped A.iter f
    .ok (if isValid A.ordQ A.ordX (p.chains A.iter) A.S G then [p] else [])
  | none =>
    (findMultiple (A.env j) A.S (G.sub (tile.nodes.map f)) (A.fresh j) (some (m - embs.length)) uf false none).1

/-- The loop over sublattices (parallel_embeddings.py 567-600). `cur` is `_T`, `none` if it is the caller's object. -/
def subLoop (A : SubArgs α β τ) (tile : Graph τ) (tileEmb : Option (Emb α τ)) (useFilter : Bool) (m : Int) :
    List (τ → β) → Nat → Graph β → Option (Graph β) → List (Emb α β) → Outcome α β
  | [], _, T, _, embs => (.ok embs, T)
  | f :: fs, j, T, cur, embs =>
    if A.lateAt j then (.ok embs, T)
    else
      match subSearch A tile tileEmb useFilter m f j (cur.elim T id) embs with
      | .error x => (.error x, T)
      | .ok new =>
        let embs := embs ++ new
        if m ≤ embs.length then (.ok embs, T)
        else
          match Emb.removal A.iter new.flatten with
          | .error x => (.error x, T)
          | .ok ns =>
            match cur with
            | some H => subLoop A tile tileEmb useFilter m fs (j + 1) T (some (H.remove ns)) embs
            | none => subLoop A tile tileEmb useFilter m fs (j + 1) (T.remove ns) none embs

/-- `tile_embedding` is given and does not embed the source in the tile (parallel_embeddings.py 504-507). -/
def SubArgs.badTile (A : SubArgs α β τ) (tile : Graph τ) : Bool :=
  match A.tileEmb with
  | some te => !isValid A.ordT A.ordX (te.chains A.iter) A.S tile
  | none => false

/-- `use_tile_embedding`, after line 507. -/
def SubArgs.tiles (A : SubArgs α β τ) : Bool := A.useTile.elim (A.same.isSome || A.tileEmb.isSome) id

/-- `tile_embedding` after line 516, where it is used (lines 506-517). -/
def SubArgs.given (A : SubArgs α β τ) : Option (Emb α τ) :=
  if A.tiles then (match A.tileEmb with | some te => some te | none => A.same) else none

/-- `use_filter` after line 517. -/
def SubArgs.filters (A : SubArgs α β τ) : Bool := A.useFilter && A.tileEmb.isNone && A.given.isNone

/-- The search on the tile itself (lines 519-550): the tile and its embedding to go on with, or nothing if there is no
embedding. -/
def SubArgs.onTile (A : SubArgs α β τ) (tile : Graph τ) : Except PErr (Option (Graph τ × Option (Emb α τ))) :=
  if A.filters || (A.tiles && A.given.isNone) then
    match (findMultiple A.envTile A.S tile A.freshTile (some 1) false false none).1 with
    | .error x => .error x
    | .ok [] => .ok none
    | .ok (te :: _) =>
      if A.tiles then
        match te.removal A.iter with
        | .error x => .error x
        | .ok ns => .ok (some (tile.sub ns, some te))
      else .ok (some (tile, none))
  else .ok (some (tile, A.given))

/-- `find_sublattice_embeddings` (parallel_embeddings.py 430-600), for a target graph of a known family. -/
def findSublattice (A : SubArgs α β τ) : Outcome α β :=
  if A.start = false then (.ok [], A.T)
  else
    match A.tile with
    | none => findMultiple (A.env 0) A.S A.T true A.limit true false none
    | some tile =>
      if A.infeasible then (.ok [], A.T)
      else if A.badTile tile then (.error .value, A.T)
      else
        match A.onTile tile with
        | .error x => (.error x, A.T)
        | .ok none => (.ok [], A.T)
        | .ok (some (tile, te)) =>
          if A.S.nodes.length = 0 then (.error .zeroDiv, A.T)
          else
            let most : Int := (A.T.nodes.length / A.S.nodes.length : Nat)
            let m := A.limit.elim most (min most)
            subLoop A tile te A.filters m (A.maps tile A.T) 0 A.T (if A.inPlace then none else some A.T) []

/-! ### Arrays -/

/-- An entry of an array: a target node, or a row. -/
inductive Entry (β : Type) where
  | leaf (n : β)
  | row (ns : List β)
  deriving DecidableEq, Repr

/-- `[emb[v] for v in node_order]`. -/
def rowOf (order : List α) (e : List (α × β)) : Except PErr (List β) :=
  match order with
  | [] => .ok []
  | v :: order =>
    match e.lookup v with
    | none => .error .key
    | some n =>
      match rowOf order e with
      | .error x => .error x
      | .ok l => .ok (n :: l)

/-- `embeddings_to_array` (parallel_embeddings.py 65-105) for a node order given, as list. -/
def toArray (order : List α) : List (List (α × β)) → Except PErr (List (List β))
  | [] => .ok []
  | e :: es =>
    match rowOf order e, toArray order es with
    | .error x, _ => .error x
    | _, .error x => .error x
    | .ok r, .ok rs => .ok (r :: rs)

/-- `{node_order[idx]: v for idx, v in enumerate(l)}`; later entries for the same key win, which does not happen for
an order without repetition. -/
def dictOf {γ : Type} : List α → List γ → Except PErr (List (α × γ))
  | _, [] => .ok []
  | [], _ :: _ => .error .index
  | v :: order, x :: l =>
    match dictOf order l with
    | .error e => .error e
    | .ok d => .ok ((v, x) :: d)

/-- `array_to_embeddings` (parallel_embeddings.py 107-132) for a list of rows and a node order given. -/
def ofArray (order : List α) (rows : List (List β)) : Except PErr (List (List (α × Entry β))) :=
  if rows.length = order.length then
    match dictOf order rows with
    | .error e => .error e
    | .ok d => .ok [d.map fun kv => (kv.1, .row kv.2)]
  else
    rows.foldr (fun r acc =>
      match dictOf order r, acc with
      | .error e, _ => .error e
      | _, .error e => .error e
      | .ok d, .ok ds => .ok ((d.map fun kv => (kv.1, .leaf kv.2)) :: ds)) (.ok [])

end Py
end MM
