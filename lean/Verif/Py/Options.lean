import Verif.Py.Errors
import Verif.Graph.Signed
import Verif.Graph.Miner

/-! Model of the scalar parameters: their defaults (include/find_embedding/util.hpp 126-143), how
`_input_parser` of minorminer/_minorminer.pyx reads them, the public `find_embedding` of minorminer/minorminer.py
and the stop time (include/find_embedding/pathfinder.hpp 589-591). -/

namespace MM
namespace Py

open Scratch (Cfg)

/-- Values of type `double`: numbers, infinities and not-a-number. -/
inductive Dbl where
  | num (q : Rat)
  | inf (negative : Bool)
  | nan
  deriving DecidableEq, Repr

/-- A Python object, as far as the parser looks at it: whether it is `None`, and what `bool(z)`, `int(z)` and
`float(z)` give; `none` if they raise an exception. -/
structure Obj where
  isNone : Bool
  truth : Option Bool
  int : Option Int
  float : Option Dbl
  deriving DecidableEq, Repr

/-- `None`. -/
def Obj.None : Obj := ⟨true, some false, .none, .none⟩

/-- A Python `int`. `float` rounds or, above the largest `double`, raises; simplified: it does neither. -/
def Obj.ofInt (i : Int) : Obj := ⟨false, some (decide (i ≠ 0)), some i, some (.num i)⟩

/-- A Python `bool`. -/
def Obj.ofBool (b : Bool) : Obj := Obj.ofInt (if b then 1 else 0)

/-- The empty tuple. -/
def Obj.unit : Obj := ⟨false, some false, .none, .none⟩

/-- Errors of reading parameters: `ValueError` and `TypeError` for an unknown name, `OverflowError`, and whatever a
conversion raised. -/
inductive OptErr where
  | unknown
  | unexpected
  | overflow
  | conversion
  deriving DecidableEq, Repr

/-- The scalar parameters of `optional_parameters` (util.hpp 126-143) and the seed of its generator. -/
structure Opts where
  interactive : Bool
  maxNoImp : Int
  skipInit : Bool
  clPatience : Int
  seed : Nat
  tries : Int
  verbose : Int
  innerRounds : Int
  timeout : Dbl
  maxBeta : Dbl
  returnOverlap : Bool
  maxFill : Int
  threads : Int
  deriving DecidableEq, Repr

/-- `numeric_limits<double>::max()`. -/
def maxDouble : Dbl := .num ((2 ^ 53 - 1) * 2 ^ 971 : Nat)

/-- `numeric_limits<int>::max()`. -/
def maxInt : Int := 2 ^ 31 - 1

/-- The set `names` (_minorminer.pyx 331-334). -/
def names : List String :=
  ["max_no_improvement", "random_seed", "timeout", "tries", "verbose", "fixed_chains", "initial_chains", "max_fill",
   "chainlength_patience", "return_overlap", "skip_initialization", "inner_rounds", "threads", "restrict_chains",
   "suspend_chains", "max_beta", "interactive"]

/-- `int(z)` assigned to a C `int`. -/
def toCInt (z : Obj) : Except OptErr Int :=
  match z.int with
  | .none => .error .conversion
  | some i => if -2 ^ 31 ≤ i ∧ i < 2 ^ 31 then .ok i else .error .overflow

/-- `int(z)` assigned to a `bint`. -/
def toBint (z : Obj) : Except OptErr Bool :=
  match z.int with
  | .none => .error .conversion
  | some i => .ok (decide (i ≠ 0))

/-- `bool(z)`. -/
def toBool (z : Obj) : Except OptErr Bool :=
  match z.truth with
  | .none => .error .conversion
  | some b => .ok b

/-- `float(z)` assigned to a `double`. -/
def toDouble (z : Obj) : Except OptErr Dbl :=
  match z.float with
  | .none => .error .conversion
  | some d => .ok d

/-- `long(z)` passed as `uint64_t`. -/
def toSeed (z : Obj) : Except OptErr Nat :=
  match z.int with
  | .none => .error .conversion
  | some i => if 0 ≤ i ∧ i < 2 ^ 64 then .ok i.toNat else .error .overflow

/-- `z = params.get(name)`, `if z is not None: … = conv(z)` (_minorminer.pyx 350-400). -/
def get {β : Type} (ps : List (String × Obj)) (name : String) (conv : Obj → Except OptErr β) (dflt : β) :
    Except OptErr β :=
  match ps.lookup name with
  | .none => .ok dflt
  | some z => if z.isNone then .ok dflt else conv z

/-- `_input_parser.__init__` up to line 400. `ps` are the items of the dict `params`; `urandom` is the number read
from `os.urandom`. The defaults are those of util.hpp 130-143. Loggers are left out. -/
def readOpts (urandom : Nat) (ps : List (String × Obj)) : Except OptErr Opts :=
  if ps.all (fun p => names.contains p.1) then do
    let interactive ← get ps "interactive" toBool false
    let maxNoImp ← get ps "max_no_improvement" toCInt 10
    let skipInit ← get ps "skip_initialization" toBint false
    let clPatience ← get ps "chainlength_patience" toCInt 2
    let seed ← get ps "random_seed" toSeed urandom
    let tries ← get ps "tries" toCInt 10
    let verbose ← get ps "verbose" toCInt 0
    let innerRounds ← get ps "inner_rounds" toCInt maxInt
    let timeout ← get ps "timeout" toDouble (.num 1000)
    let maxBeta ← get ps "max_beta" toDouble maxDouble
    let returnOverlap ← get ps "return_overlap" toBint false
    let maxFill ← get ps "max_fill" toCInt maxInt
    let threads ← get ps "threads" toCInt 1
    .ok { interactive, maxNoImp, skipInit, clPatience, seed, tries, verbose, innerRounds, timeout, maxBeta
          returnOverlap, maxFill, threads }
  else .error .unknown

/-- The parameters of the public `find_embedding` after `S` and `T`, with their defaults (minorminer.py 22-39). -/
def signature : List (String × Obj) :=
  [("max_no_improvement", .ofInt 10), ("random_seed", .None), ("timeout", .ofInt 1000), ("max_beta", .None),
   ("tries", .ofInt 10), ("inner_rounds", .None), ("chainlength_patience", .ofInt 10), ("max_fill", .None),
   ("threads", .ofInt 1), ("return_overlap", .ofBool false), ("skip_initialization", .ofBool false),
   ("verbose", .ofInt 0), ("interactive", .ofBool false), ("initial_chains", .unit), ("fixed_chains", .unit),
   ("restrict_chains", .unit), ("suspend_chains", .unit)]

/-- A parameter of the public function: what was given, or its default. -/
def supply (given : List (String × Obj)) (nd : String × Obj) : String × Obj :=
  match given.lookup nd.1 with
  | .none => nd
  | some z => (nd.1, z)

/-- The keyword arguments the public function passes on (minorminer.py 40-59), from those it was given. -/
def fill (given : List (String × Obj)) : Except OptErr (List (String × Obj)) :=
  if given.all (fun p => (signature.map Prod.fst).contains p.1) then
    .ok (signature.map (supply given))
  else .error .unexpected

/-- What a call takes from its surroundings. -/
structure Surroundings where
  /-- eight bytes of `os.urandom` -/
  urandom : Nat
  /-- the numbers a generator with the given seed gives -/
  tape : Nat → Tape
  /-- the clock at the start of the search, in nanoseconds, and at the later looks at it -/
  now : Int
  clock : Nat → Int
  /-- whether an interrupt is pending at the looks at the clock -/
  interrupt : Nat → Bool
  /-- the weight table for `max_beta` (embedding_problem.hpp 286-304) -/
  weight : Input → Dbl → Int → Int → D
  /-- `weight_bound` for `max_fill` (embedding_problem.hpp 253-267) -/
  bound : Input → Int → Int

/-- A 64-bit number of nanoseconds; leaving the range is undefined behaviour. -/
def i64 (x : Int) : M Int := if -2 ^ 63 ≤ x ∧ x < 2 ^ 63 then .ok x else .error .ub

/-- A fraction cut off towards zero. -/
def cut (q : Rat) : Int := Int.tdiv q.num q.den

/-- `stoptime` (pathfinder.hpp 589-591): `duration_cast` to the 64-bit nanoseconds of the clock is undefined
for what does not fit, and so is the sum. Simplified: the product with `10 ^ 9` is not rounded. -/
def stopTime (now : Int) (timeout : Dbl) : M Int :=
  match timeout with
  | .num q => do
    let d ← i64 (cut (q * 10 ^ 9))
    i64 (now + d)
  | _ => .error .ub

/-- The counts among the parameters. -/
def Opts.counts (o : Opts) : Counts := ⟨o.tries, o.innerRounds, o.maxNoImp, o.clPatience⟩

/-- The parameters as the search reads them, stopping at `stop`. The counts are those of `Opts.counts` if they are not
negative and are not used otherwise. -/
def Opts.params (o : Opts) (V : Surroundings) (stop : Int) (I : Input) : Params :=
  { tries := o.tries.toNat, innerRounds := o.innerRounds.toNat, maxNoImp := o.maxNoImp.toNat
    clPatience := o.clPatience.toNat, skipInit := o.skipInit, interactive := o.interactive, restricted := false
    bound := V.bound I o.maxFill, stops := fun n => (V.interrupt n, decide (stop ≤ V.clock n)) }

/-- The weights and the number of threads (find_embedding.hpp 213-218). -/
def Opts.cfg (o : Opts) (V : Surroundings) (I : Input) : Cfg := ⟨V.weight I o.maxBeta, decide (1 < o.threads)⟩

/-- `findEmbedding` (find_embedding.hpp 232-247). The copy of the parameters refuses `verbose >= 4` (util.hpp
168-173); it is made after the chains are read and before the problem is (find_embedding.hpp 64-68, 126-130). -/
def Opts.search (sort : List (List Nat) → List (List Nat)) (o : Opts) (V : Surroundings) (fuel : Nat) (I : Input) :
    M (Bool × List (List Nat)) :=
  match I.process sort with
  | .error .small => if 4 ≤ o.verbose then .error .corrupt else .error .small
  | .error e => .error e
  | .ok _ =>
    if 4 ≤ o.verbose then .error .corrupt
    else
      match stopTime V.now o.timeout with
      | .error e => .error e
      | .ok stop => findEmbeddingS sort (o.cfg V I) (o.params V stop I) o.counts fuel o.returnOverlap I (V.tape o.seed)

variable {α : Type} [DecidableEq α]

/-- What becomes of the result of the search (_minorminer.pyx 293-307). -/
def answer (P : Parsed α) (ro : Bool) (m : M (Bool × List (List Nat))) : Except PyErr (Result α) :=
  match m with
  | .error f => .error (.core f)
  | .ok (ok, cs) =>
    match rchain P.S.L P.T.L 0 (cs.take (cs.length - P.pins)) with
    | .error e => .error e
    | .ok d => .ok { dict := d, flag := if ro then some ok else none }

/-- Exceptions that reach the caller; `conversion` stands for what `bool(z)`, `int(z)` or `float(z)` raised. -/
inductive Raised where
  | lib (e : PyExc)
  | TypeError
  | OverflowError
  | IndexError
  | conversion
  deriving DecidableEq, Repr

/-- How a call can end, if at all: with a result, with an exception, with the end of the process (a C++ exception
nobody catches), or in undefined behaviour. -/
inductive Ending (α : Type) where
  | returns (r : Result α)
  | raises (e : Raised)
  | dies
  | undefined
  | endless

/-- The exceptions for parameters. -/
def OptErr.raised : OptErr → Raised
  | .unknown => .lib .ValueError
  | .unexpected => .TypeError
  | .overflow => .OverflowError
  | .conversion => .conversion

/-- The end of a call whose parameters were accepted; `findEmbedding` is declared with `handle_exceptions`
(_minorminer_h.pxi 155). -/
def outcome : Except PyErr (Result α) → Ending α
  | .ok r => .returns r
  | .error .emptySource => .returns { dict := [], flag := none }
  | .error .value => .raises (.lib .ValueError)
  | .error .runtime => .raises (.lib .RuntimeError)
  | .error .index => .raises .IndexError
  | .error (.core .ub) => .undefined
  | .error (.core .diverge) => .endless
  | .error (.core f) =>
    match thrown f with
    | none => .undefined
    | some c =>
      match handleExceptions c with
      | none => .dies
      | some e => .raises (.lib e)

/-- `find_embedding` of _minorminer.pyx, 286-307, with its parameters `ps`. The graphs and chains are in `a`; the
entries of `ps` for chains count by their names only. -/
def inner (pin : α → Nat → α) (sort : List (List Nat) → List (List Nat)) (V : Surroundings) (fuel : Nat)
    (ps : List (String × Obj)) (a : Args α) : Ending α :=
  match readOpts V.urandom ps with
  | .error e => .raises e.raised
  | .ok o =>
    match a.parse pin with
    | .error e => outcome (.error e)
    | .ok P => outcome (answer P o.returnOverlap (o.search sort V fuel P.input))

/-- The public `find_embedding` (minorminer.py 21-59) for the keyword arguments `given`. -/
def findEmbeddingPublic (pin : α → Nat → α) (sort : List (List Nat) → List (List Nat)) (V : Surroundings) (fuel : Nat)
    (given : List (String × Obj)) (a : Args α) : Ending α :=
  match fill given with
  | .error e => .raises e.raised
  | .ok ps => inner pin sort V fuel ps a

/-- `miner(S, T, **ps).find_embedding()` (_minorminer.pyx 446-498). The constructor of `pathfinder_wrapper` is not
declared to throw (_minorminer_h.pxi 122), the search is. -/
def minerFind (pin : α → Nat → α) (sort : List (List Nat) → List (List Nat)) (V : Surroundings) (fuel : Nat)
    (ps : List (String × Obj)) (a : Args α) : Ending α :=
  match readOpts V.urandom ps with
  | .error e => .raises e.raised
  | .ok o =>
    match a.parse pin with
    | .error .emptySource => .raises (.lib .ValueError)
    | .error e => outcome (.error e)
    | .ok P =>
      match P.input.process sort with
      | .error .ub => .undefined
      | .error .diverge => .endless
      | .error _ => .dies
      | .ok _ =>
        if 4 ≤ o.verbose then .dies
        else outcome (answer P o.returnOverlap (o.search sort V fuel P.input))

end Py
end MM
