import Verif.Cache.Dict

/-! Model of `busgraph_cache.clear_all_caches` (minorminer/busclique.pyx 207-233) on a file system that nobody else changes. -/

namespace MM
namespace Cache
namespace Clear

/-- A path, the last name first. -/
abbrev Path := List String

/-- What a name stands for. A symbolic link carries the path it finally leads to, which contains no links. -/
inductive Kind where
  | file
  | dir
  | link (target : Path)
  deriving DecidableEq, Repr

/-- The file system: a list of paths without links in them, but for their last name. The order within a directory is that of `iterdir`. -/
abbrev FS := Dict Path Kind

/-- `OSError`s. -/
inductive OSErr | notFound | notDir | isDir | notEmpty
  deriving DecidableEq, Repr

/-- The path with its links replaced (operating system). -/
def resolve (fs : FS) : Path → Path
  | [] => []
  | n :: p =>
    match dget fs (n :: resolve fs p) with
    | some (.link t) => t
    | _ => n :: resolve fs p

/-- What a path stands for, links being followed. -/
def kindAt (fs : FS) (p : Path) : Option Kind := dget fs (resolve fs p)

/-- `Path.exists`. -/
def pathExists (fs : FS) (p : Path) : Bool := (kindAt fs p).isSome

/-- `Path.is_dir`, which follows links. -/
def isDir (fs : FS) (p : Path) : Bool := kindAt fs p = some .dir

/-- The name of an entry of the directory `d`. -/
def nameIn (d : Path) (e : Path × Kind) : Option String :=
  match e.1 with
  | [] => none
  | n :: p => if p = d then some n else none

/-- `Path.iterdir`. -/
def iterdir (fs : FS) (p : Path) : Except OSErr (List Path) :=
  match kindAt fs p with
  | some .dir => .ok ((fs.filterMap (nameIn (resolve fs p))).map (· :: p))
  | some _ => .error .notDir
  | none => .error .notFound

/-- A path is no longer there. -/
def remove (fs : FS) (p : Path) : FS := fs.filter fun e => e.1 ≠ p

/-- The path itself, links before its last name being replaced. -/
def parentResolved (fs : FS) : Path → Path
  | [] => []
  | n :: p => n :: resolve fs p

/-- `Path.unlink`. -/
def unlink (fs : FS) (p : Path) : Except OSErr FS :=
  match dget fs (parentResolved fs p) with
  | some .dir => .error .isDir
  | some _ => .ok (remove fs (parentResolved fs p))
  | none => .error .notFound

/-- `Path.rmdir`. -/
def rmdir (fs : FS) (p : Path) : Except OSErr FS :=
  match dget fs (parentResolved fs p) with
  | some .dir => if fs.filterMap (nameIn (parentResolved fs p)) = [] then .ok (remove fs (parentResolved fs p)) else .error .notEmpty
  | some _ => .error .notDir
  | none => .error .notFound

/-- The loop over the items of a directory (busclique.pyx 223-227): the file system, `substack` and an exception. -/
def sweep : List Path → FS → List Path → FS × List Path × Option OSErr
  | [], fs, sub => (fs, sub, none)
  | item :: items, fs, sub =>
    if isDir fs item then sweep items fs (sub ++ [item])
    else
      match unlink fs item with
      | .error e => (fs, sub, some e)
      | .ok fs' => sweep items fs' sub

/-- The loop `while dirstack` (busclique.pyx 220-232), the end of the stack first, for at most so many rounds: the file system at the end and an exception; `none` if it goes on longer. -/
def clearLoop : Nat → FS → List Path → Option (FS × Option OSErr)
  | 0, _, _ => none
  | _ + 1, fs, [] => some (fs, none)
  | fuel + 1, fs, top :: stack =>
    match iterdir fs top with
    | .error e => some (fs, some e)
    | .ok items =>
      match sweep items fs [] with
      | (fs', _, some e) => some (fs', some e)
      | (fs', [], none) =>
        match rmdir fs' top with
        | .error e => some (fs', some e)
        | .ok fs'' => clearLoop fuel fs'' stack
      | (fs', sub, none) => clearLoop fuel fs' (sub.reverse ++ top :: stack)

/-- `clear_all_caches` (busclique.pyx 215-232); `root i` is `cache_rootdir(i)`. -/
def clearAll (fuel : Nat) (version : Nat) (root : Nat → Path) (fs : FS) : Option (FS × Option OSErr) :=
  clearLoop fuel fs (((List.range (version + 1)).map root).filter (pathExists fs)).reverse

end Clear
end Cache
end MM
