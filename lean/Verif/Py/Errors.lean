import Verif.Py.Parse

/-! Model of `handle_exceptions` (minorminer/src/pyutil.hpp 61-75) and of the exception classes
(include/find_embedding/util.hpp 56-88). -/

namespace MM
namespace Py

/-- The five exception classes of the library that have a name of their own (util.hpp 64-88). -/
inductive LibErr where
  | cancelled
  | timeout
  | params
  | badInit
  | corrupt
  deriving DecidableEq, Repr

/-- C++ classes of exceptions: those of the library, their common base `MinorMinerException` (util.hpp 58-62), classes of
others (`std::exception`, `std::bad_alloc`, …) and classes derived from any of these. -/
inductive CppClass where
  | lib (k : LibErr)
  | base
  | foreign (name : String)
  | derived (name : String) (from_ : CppClass)
  deriving DecidableEq, Repr

/-- Whether `catch (const C &)` for a library class takes an exception of class `c`. -/
def CppClass.isA : CppClass → LibErr → Bool
  | .lib k, l => decide (k = l)
  | .base, _ => false
  | .foreign _, _ => false
  | .derived _ c, l => c.isA l

/-- The Python exceptions set. -/
inductive PyExc where
  | TimeoutError
  | KeyboardInterrupt
  | ValueError
  | RuntimeError
  | AssertionError
  deriving DecidableEq, Repr

/-- The catch clauses in their order (pyutil.hpp 64-74). -/
def handlers : List (LibErr × PyExc) :=
  [(.timeout, .TimeoutError), (.cancelled, .KeyboardInterrupt), (.params, .ValueError), (.badInit, .RuntimeError), (.corrupt, .AssertionError)]

/-- The first clause that matches; `none` if the exception leaves the handler as a C++ exception. -/
def catchBy : List (LibErr × PyExc) → CppClass → Option PyExc
  | [], _ => none
  | (k, e) :: hs, c => if c.isA k then some e else catchBy hs c

/-- `handle_exceptions` (pyutil.hpp 61-75). -/
def handleExceptions (c : CppClass) : Option PyExc := catchBy handlers c

/-- The classes of the exceptions thrown by the search; no exception for undefined behaviour and endless loops. -/
def thrown : Fault → Option CppClass
  | .ub => none
  | .diverge => none
  | .badInit => some (.lib .badInit)
  | .cancelled => some (.lib .cancelled)
  | .corrupt => some (.lib .params)
  | .small => some .base

end Py
end MM
