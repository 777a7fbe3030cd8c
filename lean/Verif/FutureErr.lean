import Verif.Base

/-!
# The errors of futures: `src/future.cpp`, `exceptions.hpp`

Error codes, error conditions and how the standard library compares them ([syserr.compare]) with the category of this library. Categories of other
libraries are arbitrary: what they do is a parameter (`World`).

Simplifications: `int` is `Int`; a category is known by its identity (`future_category()` returns the one object, `future.cpp:66-69`, so that
`==` of categories, which compares addresses, is equality here).
-/

namespace Verif.FutureErr

/-- `enum class future_errc` (`exceptions.hpp:60-65`). -/
inductive Errc
  | broken_promise
  | future_already_retrieved
  | promise_already_satisfied
  | no_state
  deriving DecidableEq

/-- `static_cast< int >( e)` (`exceptions.hpp:60-65`). -/
def Errc.toInt : Errc → Int
  | .broken_promise => 1
  | .future_already_retrieved => 2
  | .promise_already_satisfied => 3
  | .no_state => 4

/-- The category of futures (`future.cpp:12-63`) and those of others. -/
inductive Cat
  | future
  | other (n : Nat)
  deriving DecidableEq

/-- `std::error_code`: a value and a category. -/
structure Code where
  val : Int
  cat : Cat
  deriving DecidableEq

/-- `std::error_condition`: a value and a category. -/
structure Cond where
  val : Int
  cat : Cat
  deriving DecidableEq

/-- The functions `equivalent( int, error_condition const&)` and `equivalent( error_code const&, int)` of the other categories. -/
structure World where
  equivInt : Nat → Int → Cond → Bool
  equivCode : Nat → Code → Int → Bool

/-- `future_error_category::default_error_condition` (`future.cpp:18-40`); the cases of the `switch` in its order. -/
def defaultCond (ev : Int) : Cond :=
  if ev = 1 then ⟨Errc.broken_promise.toInt, .future⟩
  else if ev = 2 then ⟨Errc.future_already_retrieved.toInt, .future⟩
  else if ev = 3 then ⟨Errc.promise_already_satisfied.toInt, .future⟩
  else if ev = 4 then ⟨Errc.no_state.toInt, .future⟩
  else ⟨ev, .future⟩

/-- `equivalent( int code, error_condition const&)`: the category of futures has the one of the base class, `default_error_condition( code) == condition`. -/
def equivalentInt (W : World) (c : Cat) (code : Int) (cond : Cond) : Bool :=
  match c with
  | .future => defaultCond code = cond
  | .other n => W.equivInt n code cond

/-- `future_error_category::equivalent( error_code const&, int)` (`future.cpp:42-45`). -/
def equivalentCode (W : World) (c : Cat) (code : Code) (cond : Int) : Bool :=
  match c with
  | .future => code.cat = .future && (defaultCond code.val).val = cond
  | .other n => W.equivCode n code cond

/-- `error_code == error_condition` ([syserr.compare]). -/
def eqCond (W : World) (code : Code) (cond : Cond) : Bool :=
  equivalentInt W code.cat code.val cond || equivalentCode W cond.cat code cond.val

/-- `make_error_code` (`exceptions.hpp:78-81`). -/
def makeCode (e : Errc) : Code := ⟨e.toInt, .future⟩

/-- `make_error_condition` (`exceptions.hpp:83-86`). -/
def makeCond (e : Errc) : Cond := ⟨e.toInt, .future⟩

/-- `future_error_category::message` (`future.cpp:47-62`). -/
def message (ev : Int) : String :=
  if ev = 1 then "The associated promise has been destructed prior to the associated state becoming ready."
  else if ev = 2 then "The future has already been retrieved from the promise or packaged_task."
  else if ev = 3 then "The state of the promise has already been set."
  else if ev = 4 then "Operation not permitted on an object without an associated state."
  else "unspecified future_errc value\n"

/-- The exception classes of futures (`exceptions.hpp:100-140`). -/
inductive Exc
  | future_uninitialized
  | future_already_retrieved
  | broken_promise
  | promise_already_satisfied
  | promise_uninitialized
  | packaged_task_uninitialized
  deriving DecidableEq

/-- `code()` of an exception: what its constructor passes on (`exceptions.hpp:100-140`). -/
def Exc.code : Exc → Code
  | .future_uninitialized => makeCode .no_state
  | .future_already_retrieved => makeCode .future_already_retrieved
  | .broken_promise => makeCode .broken_promise
  | .promise_already_satisfied => makeCode .promise_already_satisfied
  | .promise_uninitialized => makeCode .no_state
  | .packaged_task_uninitialized => makeCode .no_state

end Verif.FutureErr
