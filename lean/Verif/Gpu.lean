import Verif.Base

/-!
# Waiting for GPU streams

`include/boost/fiber/cuda/waitfor.hpp` and, identical but for the names of the API, `include/boost/fiber/hip/waitfor.hpp`.

One call of `waitfor_all`, whose rendezvous object lives on the caller's stack; the callbacks run in other threads. Code that runs
with the fiber mutex `mtx_` held is one step (C01), `cv_.wait` enqueues and releases the mutex in one step (C09), and `notify_one` wakes the
caller if it waits. The GPU runtime is assumed to call every registered callback at most once, at any time after the registration.
Accesses of `stx_` by the constructor, which does not lock, are single steps; only the use of a set node that
does not exist any more is treated as undefined, not the mere data race.
-/

namespace Verif.Gpu

abbrev Stream := Nat
abbrev Status := Nat

inductive Obs
  /-- `cudaStreamAddCallback` succeeded -/
  | registered (st : Stream)
  /-- `cudaStreamAddCallback` failed -/
  | refused (st : Stream) (e : Status)
  /-- the runtime called back -/
  | called (st : Stream) (e : Status)
  /-- `waitfor_all` returned -/
  | returned (r : List (Stream × Status))
  /-- undefined behaviour -/
  | ub
  deriving DecidableEq, Repr

/-- Where the callback of a stream is. -/
inductive Cb
  | no
  /-- registered, not called yet -/
  | due
  /-- between `lk.unlock()` and `cv_.notify_one()` (`:59-60`, `:98-99`) -/
  | unlocked
  | done
  deriving DecidableEq, Repr

/-! ## Several streams -/

namespace Many

inductive Pc
  /-- body of the loop, the iterator being at this node (`:83-90`) -/
  | add (it : Stream)
  /-- about to increment the iterator -/
  | next (it : Stream)
  /-- about to test the predicate with the mutex held (`:105`) -/
  | check
  /-- in `cv_.wait` -/
  | blocked
  | returned
  deriving DecidableEq, Repr

structure State where
  /-- excludes what makes the code go wrong, see `Props` -/
  tame : Bool
  /-- `stx_`: the nodes in order -/
  set : List Stream
  pc : Pc
  /-- `results_` -/
  res : List (Stream × Status)
  cb : Stream → Cb
  broken : Bool

/-- `std::set::insert`. -/
def insert (x : Stream) : List Stream → List Stream
  | [] => [x]
  | y :: l => if x < y then x :: y :: l else if x = y then y :: l else y :: insert x l

/-- `stx_{ l }` (`:80`). -/
def mkSet (l : List Stream) : List Stream := l.foldl (fun s x => insert x s) []

/-- The loop continues at the first node of `l`. -/
def loop : List Stream → Pc
  | [] => .check
  | x :: _ => .add x

def init (tame : Bool) (args : List Stream) : State :=
  ⟨tame, mkSet args, loop (mkSet args), [], fun _ => .no, false⟩

/-- `std::set::iterator::operator++`: what follows the node `x`; the node must exist. -/
def succ (x : Stream) : List Stream → Option (List Stream)
  | [] => none
  | y :: l => if x = y then some l else succ x l

inductive Event
  | addOk
  | addFail (e : Status)
  | incr
  | check
  /-- the runtime calls back: `notify` up to the end of its critical section (`:93-98`) -/
  | fire (st : Stream) (e : Status)
  /-- `cv_.notify_one()` (`:99`) -/
  | notify (st : Stream)
  deriving DecidableEq, Repr

def step (s : State) (ev : Event) : Option (State × List Obs) :=
  if s.broken then none else
  match ev with
  | .addOk =>
    match s.pc with
    | .add it => some ({ s with pc := .next it, cb := upd s.cb it .due }, [.registered it])
    | _ => none
  | .addFail e =>
    match s.pc with
    | .add it =>
      if s.tame = false then
        some ({ s with pc := .next it, set := s.set.erase it, res := s.res ++ [(it, e)] }, [.refused it e])   -- `:85-89`
      else none
    | _ => none
  | .incr =>
    match s.pc with
    | .next it =>
      match succ it s.set with
      | some l => some ({ s with pc := loop l }, [])
      | none => some ({ s with broken := true }, [.ub])       -- the node was erased
    | _ => none
  | .check =>
    match s.pc with
    | .check =>
      if s.set = [] then some ({ s with pc := .returned }, [.returned s.res])
      else some ({ s with pc := .blocked }, [])
    | _ => none
  | .fire st e =>
    if s.cb st = .due then
      if s.pc = .returned then some ({ s with broken := true }, [.called st e, .ub])
      else if s.tame = false ∨ (s.pc ≠ .next st ∧ (s.set.erase st = [] → s.pc = .blocked)) then
        some ({ s with set := s.set.erase st, res := s.res ++ [(st, e)],
                       cb := upd s.cb st (if s.set.erase st = [] then .unlocked else .done) }, [.called st e])
      else none
    else none
  | .notify st =>
    if s.cb st = .unlocked then
      if s.pc = .returned then some ({ s with broken := true }, [.ub])   -- `cv_` does not exist any more
      else some ({ s with cb := upd s.cb st .done, pc := if s.pc = .blocked then .check else s.pc }, [])
    else none

end Many

/-! ## One stream -/

namespace One

inductive Pc
  | ctor | check | blocked | returned
  deriving DecidableEq, Repr

structure State where
  tame : Bool
  st : Stream
  pc : Pc
  /-- `st_`, `status_`, `done_` -/
  val : Option (Stream × Status)
  cb : Cb
  broken : Bool

def init (tame : Bool) (st : Stream) : State := ⟨tame, st, .ctor, none, .no, false⟩

inductive Event
  | addOk
  | addFail (e : Status)
  | check
  /-- `:54-59` -/
  | fire (e : Status)
  /-- `:60` -/
  | notify
  deriving DecidableEq, Repr

def step (s : State) (ev : Event) : Option (State × List Obs) :=
  if s.broken then none else
  match ev with
  | .addOk => if s.pc = .ctor then some ({ s with pc := .check, cb := .due }, [.registered s.st]) else none
  | .addFail e => if s.pc = .ctor then some ({ s with pc := .check, val := some (s.st, e) }, [.refused s.st e]) else none   -- `:46-51`
  | .check =>
    if s.pc = .check then
      match s.val with
      | some v => some ({ s with pc := .returned }, [.returned [v]])
      | none => some ({ s with pc := .blocked }, [])
    else none
  | .fire e =>
    if s.cb = .due then
      if s.pc = .returned then some ({ s with broken := true }, [.called s.st e, .ub])
      else if s.tame = false ∨ s.pc = .blocked then some ({ s with val := some (s.st, e), cb := .unlocked }, [.called s.st e])
      else none
    else none
  | .notify =>
    if s.cb = .unlocked then
      if s.pc = .returned then some ({ s with broken := true }, [.ub])
      else some ({ s with cb := .done, pc := if s.pc = .blocked then .check else s.pc }, [])
    else none

end One

end Verif.Gpu
