import Verif.Cache.Dict

/-! Model of the cache on disk: `busgraph_cache._fetch_cache` (minorminer/busclique.pyx 431-509) and `copy_on_close_context` (1331-1348).
A call is a program that does one operation on the file system at a time, so that calls can be interleaved, or broken off, between any two operations. -/

namespace MM
namespace Disk

open Cache

/-- The files in one cache directory: `.lru`, one file per short code, and for each the temporary file `name~` (busclique.pyx 461, 473, 1340). The lock file is not listed. -/
inductive Name (C : Type) where
  | lru
  | lruTmp
  | file (c : C)
  | fileTmp (c : C)
  deriving DecidableEq, Repr

/-- What a file holds: the list of short codes, the dictionary of caches by identifier, or what is there between `open(…, 'wb')` and the end of `dump`. -/
inductive Data (C I V : Type) where
  | torn
  | codes (l : List C)
  | caches (m : Dict I V)
  deriving DecidableEq, Repr

/-- A directory: files by name, and what is in each of them. A file that is renamed while a process is writing to it stays the same file. -/
structure Dir (C I V : Type) where
  name : Name C → Option Nat
  data : Nat → Data C I V
  next : Nat

/-- An empty directory. -/
def Dir.empty {C I V : Type} : Dir C I V := ⟨fun _ => none, fun _ => .torn, 0⟩

/-- What a call does with the file system and the locks. -/
inductive Op (C I V : Type) where
  | acquire
  | release
  | load (n : Name C)
  | openW (n : Name C)
  | write (i : Nat) (d : Data C I V)
  | remove (n : Name C)
  | replace (src dst : Name C)

/-- What comes back. -/
inductive Ans (C I V : Type) where
  | ok
  | missing
  | opened (i : Nat)
  | data (d : Data C I V)

/-- Why a call ends without a result: `FileNotFoundError`, an exception of `load`, an exception of `compute()`; or the process is killed. -/
inductive Exn where
  | notFound
  | corrupt
  | compute
  | killed
  deriving DecidableEq, Repr

/-- What is left of a call. -/
inductive Prog (C I V : Type) where
  | ret (v : V)
  | raise (e : Exn)
  | op (o : Op C I V) (k : Ans C I V → Prog C I V)

variable {C I V : Type} [DecidableEq C] [DecidableEq I]

/-- Another file under a name, or none. -/
def Dir.bind (d : Dir C I V) (n : Name C) (i : Option Nat) : Dir C I V := { d with name := fun m => if m = n then i else d.name m }

/-- Other contents of a file. -/
def Dir.fill (d : Dir C I V) (i : Nat) (x : Data C I V) : Dir C I V := { d with data := fun j => if j = i then x else d.data j }

/-- One operation. `open(…, 'wb')` makes an existing file empty or creates a new one; `os.replace` renames. -/
def run (d : Dir C I V) : Op C I V → Dir C I V × Ans C I V
  | .acquire => (d, .ok)
  | .release => (d, .ok)
  | .load n => match d.name n with
    | none => (d, .missing)
    | some i => (d, .data (d.data i))
  | .openW n => match d.name n with
    | none => ({ (d.bind n (some d.next)).fill d.next .torn with next := d.next + 1 }, .opened d.next)
    | some i => (d.fill i .torn, .opened i)
  | .write i x => (d.fill i x, .ok)
  | .remove n => match d.name n with
    | none => (d, .missing)
    | some _ => (d.bind n none, .ok)
  | .replace src dst => match d.name src with
    | none => (d, .missing)
    | some i => ((d.bind src none).bind dst (some i), .ok)

/-- The arguments of a call: the graph's identifier and short code, `force_write`, and what `compute()` returns (`none` if it raises). -/
structure Req (C I V : Type) where
  id : I
  code : C
  force : Bool
  compute : Option V

/-- An exception inside the `with` statements (busclique.pyx 470-472): the locks are released. -/
def fail (e : Exn) : Prog C I V := .op .release fun _ => .raise e

/-- `os.replace(temp_name, file_name)` of one file (busclique.pyx 1348), then the rest. -/
def replaceThen (src dst : Name C) (rest : Prog C I V) : Prog C I V :=
  .op (.replace src dst) fun
    | .missing => .raise .notFound
    | _ => rest

/-- After the locks: `file_context.close()` renames the temporary files in the order in which they were opened, and the call returns (busclique.pyx 507-509, 1345-1348). -/
def close (r : Req C I V) (v : V) (wrote : Bool) : Prog C I V :=
  if wrote then replaceThen (.fileTmp r.code) (.file r.code) (replaceThen .lruTmp .lru (.ret v)) else replaceThen .lruTmp .lru (.ret v)

/-- `with file_context.open(lrufile, 'wb') as lru: dump(newLRU, lru)`, and the locks are released (busclique.pyx 504-505). -/
def writeLru (r : Req C I V) (v : V) (wrote : Bool) (l : List C) : Prog C I V :=
  .op (.openW .lruTmp) fun
    | .opened i => .op (.write i (.codes l)) fun _ => .op .release fun _ => close r v wrote
    | _ => fail .notFound

/-- `while len(newLRU) > __lru_size: oldkey = newLRU.pop(); os.remove(…)` (busclique.pyx 501-503), on the list `newLRU` in reverse. -/
def trim (limit : Nat) (r : Req C I V) (v : V) (wrote : Bool) : List C → Prog C I V
  | [] => writeLru r v wrote []
  | c :: rest =>
    if limit < (c :: rest).length then
      .op (.remove (.file c)) fun
        | .missing => fail .notFound
        | _ => trim limit r v wrote rest
    else writeLru r v wrote (c :: rest).reverse

/-- `newLRU` (busclique.pyx 494-497). -/
def touch (c : C) (l : List C) : List C := c :: l.filter fun x => decide (x ≠ c)

/-- From line 489 on: the list of codes is read and rewritten. -/
def updateLru (limit : Nat) (r : Req C I V) (v : V) (wrote : Bool) : Prog C I V :=
  .op (.load .lru) fun
    | .missing => trim limit r v wrote (touch r.code []).reverse
    | .data (.codes l) => trim limit r v wrote (touch r.code l).reverse
    | _ => fail .corrupt

/-- From line 479 on: look the identifier up; if need be compute, and write the file's successor (busclique.pyx 479-484). -/
def lookup (limit : Nat) (r : Req C I V) (m : Dict I V) : Prog C I V :=
  match (if r.force then none else dget m r.id) with
  | some v => updateLru limit r v false
  | none =>
    match r.compute with
    | none => fail .compute
    | some v => .op (.openW (.fileTmp r.code)) fun
      | .opened i => .op (.write i (.caches (dset m r.id v))) fun _ => updateLru limit r v true
      | _ => fail .notFound

/-- `_fetch_cache` (busclique.pyx 431-509). `limit` is `__lru_size`, which is 100 (line 42). The lock of the threads and the lock of the processes are one lock, which the operating system releases when its process dies.
`os.path.exists` and reading the file are one operation: files are removed only under the lock. What `dump` writes is complete when the file is closed. -/
def fetch (limit : Nat) (r : Req C I V) : Prog C I V :=
  .op .acquire fun _ => .op (.load (.file r.code)) fun
    | .missing => lookup limit r []
    | .data (.caches m) => lookup limit r m
    | _ => fail .corrupt

/-- A call that runs alone until its end. -/
def exec : Prog C I V → Dir C I V → Except Exn V × Dir C I V
  | .ret v, d => (.ok v, d)
  | .raise e, d => (.error e, d)
  | .op o k, d => exec (k (run d o).2) (run d o).1

/-- What is on disk after a call that runs alone was killed after `n` operations. -/
def execN : Nat → Prog C I V → Dir C I V → Dir C I V
  | n + 1, .op o k, d => execN n (k (run d o).2) (run d o).1
  | _, _, d => d

/-- One call after another: the results and the directory at the end. -/
def execAll (limit : Nat) : List (Req C I V) → Dir C I V → List (Except Exn V) × Dir C I V
  | [], d => ([], d)
  | r :: rs, d =>
    let x := exec (fetch limit r) d
    let y := execAll limit rs x.2
    (x.1 :: y.1, y.2)

/-- Calls of any number of processes on the same directory: what is left of each of them, and which one holds the locks. `evicted` records, for stating things only, the calls that have removed a file. -/
structure Sys (C I V : Type) where
  prog : Nat → Prog C I V
  holder : Option Nat
  dir : Dir C I V
  evicted : Nat → Bool

/-- What happens next: call `i` does its next operation, or its process is killed. -/
inductive Event where
  | step (i : Nat)
  | crash (i : Nat)
  deriving DecidableEq, Repr

/-- What is left of call `i` is `p`. -/
def Sys.go (s : Sys C I V) (i : Nat) (p : Prog C I V) : Sys C I V := { s with prog := fun j => if j = i then p else s.prog j }

/-- One operation of call `i` other than those on the locks. -/
def Sys.doOp (s : Sys C I V) (i : Nat) (o : Op C I V) (k : Ans C I V → Prog C I V) : Sys C I V := { s.go i (k (run s.dir o).2) with dir := (run s.dir o).1 }

/-- One event. A call that waits for the locks, or has ended, does nothing. -/
def Sys.event (s : Sys C I V) : Event → Sys C I V
  | .step i =>
    match s.prog i with
    | .ret _ => s
    | .raise _ => s
    | .op .acquire k => if s.holder = none then { s.go i (k .ok) with holder := some i } else s
    | .op .release k => { s.go i (k .ok) with holder := none }
    | .op (.remove n) k => { s.doOp i (.remove n) k with evicted := fun j => decide (j = i) || s.evicted j }
    | .op o k => s.doOp i o k
  | .crash i =>
    match s.prog i with
    | .ret _ => s
    | .raise _ => s
    | .op _ _ => { s.go i (.raise .killed) with holder := if s.holder = some i then none else s.holder }

/-- Calls that have not begun. -/
def Sys.start (limit : Nat) (rs : Nat → Req C I V) (d : Dir C I V) : Sys C I V := ⟨fun i => fetch limit (rs i), none, d, fun _ => false⟩

end Disk
end MM
