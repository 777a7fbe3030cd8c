import Verif.Base

/-!
# A tree of `async` calls: `performance/fiber/skynet_stealing_async.cpp`

A call of `skynet` starts `div` calls on a part of the range each with `fibers::async`, which gives a future for each, and returns the sum of what
`get` returns, in the order of the calls (`:43-67`). An exception that leaves a call is stored in its future and thrown by `get` (`async.hpp:34-118`,
`packaged_task`); it then leaves the caller too. The futures that are left are destroyed, which does not wait: `async` detaches the fiber
(`async.hpp:51`, `:72`, `:94`, `:116`), so the calls go on.

A call is named by the indices of the calls that lead to it, the last one first; `[]` is the call made by `main`. Any call may take the next step:
this covers both launch policies, every scheduling algorithm and several threads.

Simplifications: the leaf, `return num` (`:66`), is any function of `num` that returns a number or throws (the one of the program returns `num`).
A future behaves as proved in C31 and C37: `get` waits until the call has ended and gives its outcome. Numbers are unbounded: the sums are assumed to
be less than 2^64. Allocation does not fail.
-/

namespace Verif.AsyncTree

/-- A call: the indices `i` of the loops (`skynet_stealing_async.cpp:50`) that lead to it, the last one first. -/
abbrev Path := List Nat

/-- How a call ends: it returns a number or throws an exception. -/
inductive Res
  | ok (v : Nat)
  | error (e : Nat)
  deriving DecidableEq

/-- The program: `div`, `num` and `size` of the first call (`skynet_stealing_async.cpp:81-82`, `:94`) and what a leaf does with `num` (`:66`). -/
structure Prog where
  div : Nat
  num : Nat
  size : Nat
  leaf : Nat → Res

/-- Where a call is (`skynet_stealing_async.cpp:43-67`). -/
inductive Pc
  | new                       -- not started
  | start                     -- `if ( size != 1)` (`:44`)
  | loop (i : Nat)            -- the loop that calls `async` (`:50-57`)
  | get (i sum : Nat)         -- `sum += f.get()` (`:60-61`)
  | done (r : Res)            -- ended, the outcome is in the future
  | ub                        -- `size /= div` with `div == 0` (`:45`)
  deriving DecidableEq

/-- The state: where each call is, and its arguments `num` and `size`. -/
structure State where
  pc : Path → Pc
  arg : Path → Nat × Nat

/-- `result r`: the call made by `main` has ended; `ub`: undefined behaviour. -/
inductive Obs
  | result (r : Res)
  | ub
  deriving DecidableEq

/-- Assignment to a variable of one call. -/
def set {α : Type} (f : Path → α) (p : Path) (v : α) : Path → α :=
  fun q => if q = p then v else f q

/-- `main` calls `skynet` (`skynet_stealing_async.cpp:94`). -/
def init (P : Prog) : State where
  pc := set (fun _ => .new) [] .start
  arg := set (fun _ => (0, 0)) [] (P.num, P.size)

/-- A call ends (`packaged_task` stores the outcome of the function in the shared state, `task_object.hpp`). -/
def finish (s : State) (p : Path) (r : Res) : Option (State × List Obs) :=
  some ({ s with pc := set s.pc p (.done r) }, if p = [] then [.result r] else [])

/-- The next action of call `p` (`skynet`, `skynet_stealing_async.cpp:43-67`). -/
def step (P : Prog) (s : State) (p : Path) : Option (State × List Obs) :=
  match s.pc p with
  | .new => none
  | .start =>
    if (s.arg p).2 = 1 then finish s p (P.leaf (s.arg p).1)
    else if P.div = 0 then some ({ s with pc := set s.pc p .ub }, [.ub])
    else some ({ s with pc := set s.pc p (.loop 0) }, [])
  | .loop i =>
    if i < P.div then
      some ({ s with pc := set (set s.pc (i :: p) .start) p (.loop (i + 1)),
                     arg := set s.arg (i :: p) ((s.arg p).1 + i * ((s.arg p).2 / P.div), (s.arg p).2 / P.div) }, [])
    else some ({ s with pc := set s.pc p (.get 0 0) }, [])
  | .get i sum =>
    if i < P.div then
      match s.pc (i :: p) with
      | .done (.ok v) => some ({ s with pc := set s.pc p (.get (i + 1) (sum + v)) }, [])
      | .done (.error e) => finish s p (.error e)
      | _ => none
    else finish s p (.ok sum)
  | .done _ => none
  | .ub => none

end Verif.AsyncTree
