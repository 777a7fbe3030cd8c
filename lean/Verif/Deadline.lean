import Verif.Base

/-!
# Deadlines of timed operations

Every timed operation of the library turns what the user gave it into a `std::chrono::steady_clock::time_point`:

* `…_for( d)`: `std::chrono::steady_clock::now() + timeout_duration` (`include/boost/fiber/timed_mutex.hpp:68`,
  `recursive_timed_mutex.hpp:74`, `condition_variable.hpp:133,139`, `buffered_channel.hpp:194,201,327`,
  `unbuffered_channel.hpp:199,206,359`, `operations.hpp:48`);
* `…_until( t)`: `detail::convert( t)` (`include/boost/fiber/detail/convert.hpp:25-35`), which is `t` for a `steady_clock::time_point` and
  `std::chrono::steady_clock::now() + ( t - Clock::now() )` for any other (also for a time point of `steady_clock` whose
  duration type is not that of the clock).

Then it waits, and reports a timeout only at or after that time (C06, C13, C22, C43; here: event `expire`).

Time is counted in nanoseconds. Clocks and durations count in signed 64 bit integers, as in libstdc++ and libc++; an
operation whose result does not fit is undefined behaviour, observation `ub`, and the call takes no further step. With
`wrap` the same operation is what the processor does instead. Durations have an integral representation and a period
of `k` nanoseconds; any others do not convert to the type of the deadline without a cast, so they do not compile.
The two operands of `+` in `convert` are evaluated in an unspecified order; `steadyFirst` is the order the compiler chose.
-/

namespace Verif.Deadline

/-- What the caller gives. -/
inductive Req
  /-- a duration of `d` units of `k` nanoseconds -/
  | for_ (d : Int) (k : Nat)
  /-- a time point of `steady_clock` -/
  | until (t : Int)
  /-- a time point of another clock -/
  | untilClock (t : Int)
  deriving DecidableEq, Repr

inductive Pc
  | idle
  /-- called, has read no clock yet -/
  | enter (q : Req)
  /-- in `convert`, has read `steady_clock` (`true`) or the other clock (`false`) -/
  | half (t : Int) (steady : Bool) (r : Int)
  /-- waits until the deadline -/
  | waits (dl : Int)
  /-- undefined behaviour -/
  | bad
  deriving DecidableEq, Repr

inductive Obs
  /-- fiber `f` calls a timed operation; `now`: the reading of `steady_clock` -/
  | called (f : Fid) (q : Req) (now : Int)
  /-- the operation of `f` reports a timeout; `now`, `clk`: the readings of `steady_clock` and of the other clock -/
  | timeout (f : Fid) (now clk : Int)
  /-- the operation of `f` ends otherwise -/
  | done (f : Fid)
  /-- somebody sets the other clock, which is moved by `n` -/
  | adjusted (n : Int)
  /-- signed overflow -/
  | ub (f : Fid)
  deriving DecidableEq, Repr

structure State where
  wrap : Bool
  steadyFirst : Bool
  now : Int
  /-- reading of the other clock minus that of `steady_clock` -/
  off : Int
  pc : Fid → Pc

def State.clk (s : State) : Int := s.now + s.off

inductive Event
  | call (f : Fid) (q : Req)
  /-- the fiber evaluates the next part of its deadline -/
  | run (f : Fid)
  /-- the deadline is reached and the operation gives up -/
  | expire (f : Fid)
  /-- the operation succeeds, or ends for another reason -/
  | finish (f : Fid)
  | tick (n : Nat)
  | adjust (n : Int)
  deriving DecidableEq, Repr

def init (wrap steadyFirst : Bool) (now off : Int) : State := ⟨wrap, steadyFirst, now, off, fun _ => .idle⟩

/-- The numbers of 64 bit. -/
def fits (x : Int) : Bool := decide (-9223372036854775808 ≤ x ∧ x ≤ 9223372036854775807)

/-- What is left of `x` in 64 bit. -/
def wrapped (x : Int) : Int := (x + 9223372036854775808) % 18446744073709551616 - 9223372036854775808

/-- The result of an operation on 64 bit integers whose exact result is `x`. -/
def word (wrap : Bool) (x : Int) : Option Int := if fits x then some x else if wrap then some (wrapped x) else none

/-- The deadline of a duration, at time `now`: the duration is converted to nanoseconds, then added. -/
def ofDuration (wrap : Bool) (now d : Int) (k : Nat) : Option Int :=
  match word wrap (d * k) with
  | some x => word wrap (now + x)
  | none => none

/-- The deadline `convert` computes from the readings `st` of `steady_clock` and `c` of the other clock (`convert.hpp:34`). -/
def ofClock (wrap : Bool) (st c t : Int) : Option Int :=
  match word wrap (t - c) with
  | some x => word wrap (st + x)
  | none => none

/-- The deadline is known, or the computation was undefined. -/
def State.wait (s : State) (f : Fid) : Option Int → State × List Obs
  | some dl => ({ s with pc := upd s.pc f (.waits dl) }, [])
  | none => ({ s with pc := upd s.pc f .bad }, [.ub f])

def step (s : State) : Event → Option (State × List Obs)
  | .call f q =>
    match s.pc f with
    | .idle => some ({ s with pc := upd s.pc f (.enter q) }, [.called f q s.now])
    | _ => none
  | .run f =>
    match s.pc f with
    | .enter (.for_ d k) => some (s.wait f (ofDuration s.wrap s.now d k))
    | .enter (.until t) => some (s.wait f (some t))          -- `convert.hpp:25-29`
    | .enter (.untilClock t) =>                              -- `convert.hpp:31-35`
      some ({ s with pc := upd s.pc f (.half t s.steadyFirst (if s.steadyFirst then s.now else s.clk)) }, [])
    | .half t true r => some (s.wait f (ofClock s.wrap r s.clk t))
    | .half t false r => some (s.wait f (ofClock s.wrap s.now r t))
    | _ => none
  | .expire f =>
    match s.pc f with
    | .waits dl => if dl ≤ s.now then some ({ s with pc := upd s.pc f .idle }, [.timeout f s.now s.clk]) else none
    | _ => none
  | .finish f =>
    match s.pc f with
    | .waits _ => some ({ s with pc := upd s.pc f .idle }, [.done f])
    | _ => none
  | .tick n => some ({ s with now := s.now + n }, [])
  | .adjust n => some ({ s with off := s.off + n }, [.adjusted n])

end Verif.Deadline
