import Verif.Base

/-!
# A fiber that joins another one by reference: `examples/join.cpp`

`fn1` and `fn2` run their loops; in one iteration `fn2` joins the fiber `f1`, whose handle belongs to `main`. `main` joins `f2` only, and then destroys both
handles.

Simplifications: the numbers of iterations (5 and 5) and the iteration with `join` (1) are parameters. One step is what a fiber does from one suspension
to the next; the scheduler may choose any fiber that can go on. `join()` and `~fiber()` behave as the claims about handles prove them to: `join` suspends until
the fiber has ended and makes the handle not joinable, the destructor of a joinable handle calls `std::terminate` (`fiber.hpp:174-178`, `src/fiber.cpp:43-56`).
-/

namespace Verif.JoinRef

/-- Iterations of `fn1` (`join.cpp:21`), of `fn2` (`join.cpp:33`), and the one in which `fn2` joins (`join.cpp:37`). -/
structure Prog where
  a : Nat
  b : Nat
  j : Nat

/-- `fn1` (`join.cpp:18-28`): before iteration `i`, or returned. -/
inductive F1
  | loop (i : Nat)
  | done
  deriving DecidableEq

/-- `fn2` (`join.cpp:30-47`): before iteration `i`, inside `f.join()` of iteration `i` (`:41`), or returned. -/
inductive F2
  | loop (i : Nat)
  | joining (i : Nat)
  | done
  deriving DecidableEq

/-- `main` (`join.cpp:49-67`): in `f2.join()` (`:56`), behind it, returned, or the program was ended by `std::terminate`. -/
inductive Main
  | join
  | leave
  | exited
  | terminated
  deriving DecidableEq

/-- The fibers, `value1` and `value2` (`join.cpp:15-16`), and whether the handle `f1` is joinable. -/
structure State where
  f1 : F1
  f2 : F2
  main : Main
  value1 : Nat
  value2 : Nat
  joinable : Bool
  deriving DecidableEq

/-- What is printed. -/
inductive Obs
  | inc1 (v : Nat)
  | ret1
  | inc2 (v : Nat)
  | joins
  | joined
  | ret2
  | done
  deriving DecidableEq

/-- Which fiber goes on. -/
inductive Event
  | f1 | f2 | main

/-- `join.cpp:53-54`. -/
def init : State := { f1 := .loop 0, f2 := .loop 0, main := .join, value1 := 0, value2 := 0, joinable := true }

/-- One step of `fn1` (`join.cpp:21-27`). -/
def step1 (P : Prog) (s : State) : Option (State × List Obs) :=
  match s.f1 with
  | .loop i =>
    if i < P.a then some ({ s with f1 := .loop (i + 1), value1 := s.value1 + 1 }, [.inc1 (s.value1 + 1)])
    else some ({ s with f1 := .done }, [.ret1])
  | .done => none

/-- One step of `fn2` (`join.cpp:33-46`). -/
def step2 (P : Prog) (s : State) : Option (State × List Obs) :=
  match s.f2 with
  | .loop i =>
    if i < P.b then
      if i = P.j then some ({ s with f2 := .joining i, value2 := s.value2 + 1 }, [.inc2 (s.value2 + 1), .joins])
      else some ({ s with f2 := .loop (i + 1), value2 := s.value2 + 1 }, [.inc2 (s.value2 + 1)])
    else some ({ s with f2 := .done }, [.ret2])
  | .joining i => if s.f1 = .done then some ({ s with f2 := .loop (i + 1), joinable := false }, [.joined]) else none
  | .done => none

/-- One step of `main` (`join.cpp:56-60`, and the destructors of `f2`, which is not joinable, and `f1`). -/
def stepM (s : State) : Option (State × List Obs) :=
  match s.main with
  | .join => if s.f2 = .done then some ({ s with main := .leave }, [.done]) else none
  | .leave => if s.joinable then some ({ s with main := .terminated }, []) else some ({ s with main := .exited }, [])
  | _ => none

/-- One step of the program; `std::terminate` ends all fibers. -/
def step (P : Prog) (s : State) (e : Event) : Option (State × List Obs) :=
  if s.main = .terminated then none
  else match e with
    | .f1 => step1 P s
    | .f2 => step2 P s
    | .main => stepM s

end Verif.JoinRef
