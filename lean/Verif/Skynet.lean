import Verif.Base

/-!
# A tree of fibers that returns its results through channels: `performance/fiber/skynet_join.cpp`, `skynet_detach.cpp`

A call of `skynet` starts `div` fibers that run `skynet` on a part of the range each, takes `div` results from its own buffered channel, and pushes
the sum into the channel of its caller. `skynet_join.cpp` joins the fibers before it takes the results (`:44-46`), `skynet_detach.cpp` detaches
them (`:41`). The variants `skynet_shared_*` and `skynet_stealing_*` run the same function on several threads.

A call is named by the indices of the calls that lead to it, the last one first; `[]` is the call made by `main`. Any call may take the next
step: this covers `launch::dispatch`, every scheduling algorithm and several threads.

Simplifications: a channel behaves as proved for `buffered_channel` in `Verif/Buffered.lean` (first in first out, a channel made with `cap` slots
holds `cap - 1` elements, `buffered_channel.hpp:52-54`); it is not closed. Numbers are unbounded: `div * size`
and the sums are assumed to be less than 2^64. Allocation does not fail.
-/

namespace Verif.Skynet

/-- A call of `skynet`: the indices `i` of the loops (`skynet_join.cpp:37`) that lead to it, the last one first. -/
abbrev Path := List Nat

/-- The program: `div`, the slots of the channel of a call (`16`, `skynet_join.cpp:35`), the arguments `num` and `size` of the first call (`:57-58`, `:70`),
and whether fibers are joined (`skynet_join.cpp:44-46`) or detached (`skynet_detach.cpp:41`). -/
structure Prog where
  div : Nat
  cap : Nat
  num : Nat
  size : Nat
  joins : Bool

/-- Where a call is (`skynet_join.cpp:31-53`). -/
inductive Pc
  | new                       -- not started
  | start                     -- `if ( 1 == size)` (`:32`)
  | loop (i : Nat)            -- the loop that launches fibers (`:37-43`)
  | join (i : Nat)            -- `f.join()` of fiber `i` (`:44-46`)
  | pop (i sum : Nat)         -- `sum += rc.value_pop()` (`:48-50`)
  | push (v : Nat)            -- `c.push( num)`, `c.push( sum)` (`:33`, `:51`)
  | done                      -- the function has returned
  deriving DecidableEq

/-- The state: where each call is, its arguments `num` and `size`, its channel `rc`, and the channel of `main` (`skynet_join.cpp:68`). -/
structure State where
  pc : Path → Pc
  arg : Path → Nat × Nat
  rc : Path → List Nat
  out : List Nat

/-- `pushed p v`: call `p` has pushed `v` into the channel of its caller; `result v`: the first call has pushed `v` into the channel of `main`. -/
inductive Obs
  | pushed (p : Path) (v : Nat)
  | result (v : Nat)
  deriving DecidableEq

/-- Assignment to a variable of one call. -/
def set {α : Type} (f : Path → α) (p : Path) (v : α) : Path → α :=
  fun q => if q = p then v else f q

/-- `main` calls `skynet` (`skynet_join.cpp:68-70`). -/
def init (P : Prog) : State where
  pc := set (fun _ => .new) [] .start
  arg := set (fun _ => (0, 0)) [] (P.num, P.size)
  rc := fun _ => []
  out := []

/-- `rc.push`: the channel of `main` has two slots and holds one element (`skynet_join.cpp:68`), the one of a call holds `cap - 1`; `push` waits while the
channel is full (`buffered_channel.hpp:145-170`). -/
def push (P : Prog) (s : State) (p : Path) (v : Nat) : Option (State × List Obs) :=
  match p with
  | [] => if s.out.length + 1 < 2 then some ({ s with out := s.out ++ [v], pc := set s.pc [] .done }, [.result v]) else none
  | i :: q =>
    if (s.rc q).length + 1 < P.cap then
      some ({ s with rc := set s.rc q (s.rc q ++ [v]), pc := set s.pc (i :: q) .done }, [.pushed (i :: q) v])
    else none

/-- The next action of call `p` (`skynet`, `skynet_join.cpp:31-53`; `skynet_detach.cpp:31-50`). -/
def step (P : Prog) (s : State) (p : Path) : Option (State × List Obs) :=
  match s.pc p with
  | .new => none
  | .start =>
    if (s.arg p).2 = 1 then some ({ s with pc := set s.pc p (.push (s.arg p).1) }, [])
    else some ({ s with pc := set s.pc p (.loop 0) }, [])
  | .loop i =>
    if i < P.div then
      some ({ s with pc := set (set s.pc (i :: p) .start) p (.loop (i + 1)),
                     arg := set s.arg (i :: p) ((s.arg p).1 + i * (s.arg p).2 / P.div, (s.arg p).2 / P.div) }, [])
    else some ({ s with pc := set s.pc p (if P.joins then .join 0 else .pop 0 0) }, [])
  | .join i =>
    if i < P.div then
      if s.pc (i :: p) = .done then some ({ s with pc := set s.pc p (.join (i + 1)) }, []) else none
    else some ({ s with pc := set s.pc p (.pop 0 0) }, [])
  | .pop i sum =>
    if i < P.div then
      match s.rc p with
      | [] => none
      | v :: vs => some ({ s with rc := set s.rc p vs, pc := set s.pc p (.pop (i + 1) (sum + v)) }, [])
    else some ({ s with pc := set s.pc p (.push sum) }, [])
  | .push v => push P s p v
  | .done => none

end Verif.Skynet
