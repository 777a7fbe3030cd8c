import Verif.Base

/-!
# Launching a fiber: the callable, its arguments and the stack

The constructors of `fiber` (`include/boost/fiber/fiber.hpp:55-172`), `make_worker_context_with_properties`
and `worker_context` (`include/boost/fiber/context.hpp:430-505`), `intrusive_ptr_release` (`context.hpp:372-389`).

One launch is followed from the constructor of `fiber` to the release of the stack, construction by construction
and destruction by destruction; each construction from another object may throw.

* The arguments have numbers `0, …, n - 1`; number `n` is the callable. They are passed from layer to layer by value:
  layer `0` are the caller's own objects, layers `1, …, d + 1` the parameters of the constructors of `fiber`
  (`Arg ... arg`; each but the last delegates to the next), layer `d + 2` those of
  `make_worker_context_with_properties`, layer `d + 3` those of the constructor of `worker_context`. The callable is passed by reference through all layers.
* `steal i`: moving object `i` leaves an empty object behind. Otherwise a move is a copy (a class without a move
  constructor, a lambda with captured constants). `lv i`: the caller passed an lvalue, which is copied.
* The order in which parameters and the elements of a tuple are initialised is not specified by the language; the model
  goes by number, and destroys in reverse order.
* Stack allocation may fail (`std::bad_alloc`). Attaching and scheduling the new fiber do not throw. The members set in
  the body of the constructor of `worker_context` (`context.hpp:468-476`) are not modelled: creating the coroutine and
  copying `salloc` do not throw.
* An exception that leaves the function of a fiber ends the program (`std::terminate`).
* `join` returns at some time after the fiber is over (C38); the dispatcher releases the fiber at some time after it has left
  its stack (C40). Whoever drops the last reference destroys the control block.
-/

namespace Verif.Launch

/-- One launch: the number of arguments, the number of delegating constructors, and what the types are like. -/
structure Cfg where
  n     : Nat
  d     : Nat
  steal : Nat → Bool
  lv    : Nat → Bool

/-- Where objects live. -/
inductive Place
  | par (k : Nat)        -- a parameter of layer `k`
  | mem                  -- `fn_`, `arg_`    `context.hpp:433-434`
  | loc                  -- `fn`, `arg` in `run_`   `context.hpp:441-442`
  deriving DecidableEq, Repr

/-- What the launching fiber is about to do. -/
inductive L
  | par (k i : Nat)               -- construct parameter `i` of layer `k`
  | alloc                         -- `salloc.allocate()`                   `context.hpp:486`
  | fn                            -- `fn_( std::forward< Fn >( fn) )`      `context.hpp:466`
  | mem (i : Nat)                 -- `arg_( std::forward< Arg >( arg) ... )`   `context.hpp:467`
  | uMem (i : Nat)                -- after an exception: `i` elements of `arg_` are to be destroyed
  | uFn                           -- after an exception: `fn_` is to be destroyed
  | drop (k i : Nat) (ok : Bool)  -- `i` parameters of layer `k` are to be destroyed; `ok`: no exception
  | start                         -- `start_()`                            `fiber.hpp:171`
  | done                          -- the constructor has returned
  | failed                        -- the constructor has thrown
  deriving DecidableEq, Repr

/-- What the new fiber, or whoever destroys it, is about to do. -/
inductive F
  | none                          -- not started
  | fn                            -- `auto fn = std::move( fn_)`           `context.hpp:441`
  | arg (i : Nat)                 -- `auto arg = std::move( arg_)`         `context.hpp:442`
  | call                          -- `std::apply( … )`                     `context.hpp:449-451`
  | dArg (i : Nat)                -- `i` elements of `arg` are to be destroyed  `context.hpp:453`
  | dFn
  | over                          -- `terminate()`                         `context.hpp:455`
  | ended                         -- terminated
  | kMem (i : Nat)                -- `ctx->~context()`                     `context.hpp:385`
  | kFn
  | free                          -- `std::move( c).resume()`              `context.hpp:387`
  | gone
  deriving DecidableEq, Repr

structure State where
  l      : L
  f      : F
  src    : Nat → Bool                   -- the caller's objects: do they hold their value?
  par    : Nat → Nat → Option Bool      -- parameters: do they exist, and hold a value?
  mem    : Nat → Option Bool
  loc    : Nat → Option Bool
  handle : Bool                         -- the `fiber` object refers to the fiber
  sched  : Bool                         -- the scheduler refers to the fiber
  dead   : Bool                         -- `std::terminate`

inductive Obs
  | made (p : Place) (i : Nat)          -- object `i` was constructed
  | dropped (p : Place) (i : Nat)       -- … was destroyed
  | threw (p : Place) (i : Nat)         -- its constructor has thrown
  | alloc                               -- a stack was allocated
  | freed                               -- … was given back
  | started                             -- the fiber was handed to the scheduler
  | returned                            -- the constructor of `fiber` has returned
  | failed                              -- the constructor of `fiber` has thrown
  | called (vs : List Bool)             -- the callable is called: do arguments and callable hold their values?
  | over                                -- the fiber is over
  | joined                              -- `join` has returned
  | abort                               -- `std::terminate`
  deriving DecidableEq, Repr

inductive Event
  | go (throws : Bool)                  -- the launching fiber
  | run (throws : Bool)                 -- the new fiber, or whoever destroys it
  | join                                -- `join` returns and drops the handle
  | detach
  | reap                                -- the dispatcher drops its reference
  deriving DecidableEq, Repr

def init (c : Cfg) : State :=
  { l := .par 1 0, f := .none, src := fun _ => true, par := fun _ _ => Option.none, mem := fun _ => Option.none,
    loc := fun _ => Option.none, handle := false, sched := false, dead := false }

/-- `upd` for parameters. -/
def upd2 (g : Nat → Nat → Option Bool) (k i : Nat) (v : Option Bool) : Nat → Nat → Option Bool :=
  fun k' i' => if k' = k ∧ i' = i then v else g k' i'

/-- Is the caller's object left as it is when layer 1 (or the control block) is constructed from it? -/
def Cfg.keeps (c : Cfg) (i : Nat) : Bool := c.lv i || !c.steal i

/-- What a move leaves behind. -/
def leave (steal : Bool) (v : Option Bool) : Option Bool := if steal then v.map (fun _ => false) else v

@[grind =] theorem leave_isSome (st : Bool) (v : Option Bool) : (leave st v).isSome = v.isSome := by
  cases st <;> cases v <;> rfl

@[grind =] theorem leave_none (st : Bool) (v : Option Bool) : leave st v = none ↔ v = none := by
  cases st <;> cases v <;> simp [leave]

theorem leave_steal (v : Option Bool) : leave true v ≠ some true := by
  cases v <;> simp [leave]

/-- Construct parameter `i` of layer `k` from layer `k - 1`. -/
def mkPar (c : Cfg) (s : State) (k i : Nat) : State :=
  { s with
    par := upd2 (upd2 s.par k i (if k = 1 then some (s.src i) else s.par (k - 1) i)) (k - 1) i
             (leave (c.steal i) (s.par (k - 1) i)),
    src := upd s.src i (s.src i && (k != 1 || c.keeps i)) }

/-- Construct element `i` of `arg_` from the parameter of the constructor. -/
def mkMem (c : Cfg) (s : State) (i : Nat) : State :=
  { s with mem := upd s.mem i (s.par (c.d + 3) i),
           par := upd2 s.par (c.d + 3) i (leave (c.steal i) (s.par (c.d + 3) i)) }

/-- Construct `fn_` from the caller's object. -/
def mkFn (c : Cfg) (s : State) : State :=
  { s with mem := upd s.mem c.n (some (s.src c.n)), src := upd s.src c.n (s.src c.n && c.keeps c.n) }

/-- Construct a local object of `run_` from the member. -/
def mkLoc (c : Cfg) (s : State) (i : Nat) : State :=
  { s with loc := upd s.loc i (s.mem i), mem := upd s.mem i (leave (c.steal i) (s.mem i)) }

/-- The launching fiber. -/
def go (c : Cfg) (s : State) (throws : Bool) : Option (State × List Obs) :=
  match s.l with
  | .par k i =>
    if i < c.n then
      if throws then some ({ s with l := .drop k i false }, [.threw (.par k) i])
      else some ({ mkPar c s k i with l := .par k (i + 1) }, [.made (.par k) i])
    else if throws then none
    else if k = c.d + 2 then some ({ s with l := .alloc }, [])
    else if k = c.d + 3 then some ({ s with l := .fn }, [])
    else some ({ s with l := .par (k + 1) 0 }, [])
  | .alloc =>
    if throws then some ({ s with l := .drop (c.d + 2) c.n false }, [])
    else some ({ s with l := .par (c.d + 3) 0 }, [.alloc])
  | .fn =>
    if throws then some ({ s with l := .drop (c.d + 3) c.n false }, [.threw .mem c.n])
    else some ({ mkFn c s with l := .mem 0 }, [.made .mem c.n])
  | .mem i =>
    if i < c.n then
      if throws then some ({ s with l := .uMem i }, [.threw .mem i])
      else some ({ mkMem c s i with l := .mem (i + 1) }, [.made .mem i])
    else if throws then none
    else some ({ s with l := .drop (c.d + 3) c.n true }, [])
  | .uMem (i + 1) => if throws then none else some ({ s with l := .uMem i, mem := upd s.mem i none }, [.dropped .mem i])
  | .uMem 0 => if throws then none else some ({ s with l := .uFn }, [])
  | .uFn =>
    if throws then none
    else some ({ s with l := .drop (c.d + 3) c.n false, mem := upd s.mem c.n none }, [.dropped .mem c.n])
  | .drop k (i + 1) ok =>
    if throws then none else some ({ s with l := .drop k i ok, par := upd2 s.par k i none }, [.dropped (.par k) i])
  | .drop k 0 ok =>
    if throws then none
    else if k = c.d + 2 ∧ ok = true then some ({ s with l := .start }, [])
    else if 1 < k then some ({ s with l := .drop (k - 1) c.n ok }, [])
    else if ok then some ({ s with l := .done }, [.returned])
    else some ({ s with l := .failed }, [.failed])
  | .start =>
    if throws then none
    else some ({ s with l := .drop (c.d + 1) c.n true, f := .fn, handle := true, sched := true }, [.started])
  | .done => none
  | .failed => none

/-- Drop a reference: the last one destroys the control block (`context.hpp:379-389`). -/
def release (c : Cfg) (s : State) : State :=
  if s.handle = false ∧ s.sched = false then { s with f := .kMem c.n } else s

/-- The new fiber, and its destruction. -/
def run (c : Cfg) (s : State) (throws : Bool) : Option (State × List Obs) :=
  match s.f with
  | .none => none
  | .fn =>
    if throws then some ({ s with dead := true }, [.threw .loc c.n, .abort])
    else some ({ mkLoc c s c.n with f := .arg 0 }, [.made .loc c.n])
  | .arg i =>
    if i < c.n then
      if throws then some ({ s with dead := true }, [.threw .loc i, .abort])
      else some ({ mkLoc c s i with f := .arg (i + 1) }, [.made .loc i])
    else if throws then none
    else some ({ s with f := .call }, [])
  | .call =>
    let o := Obs.called ((List.range (c.n + 1)).map (fun i => (s.loc i).getD false))
    if throws then some ({ s with dead := true }, [o, .abort])
    else some ({ s with f := .dArg c.n }, [o])
  | .dArg (i + 1) => if throws then none else some ({ s with f := .dArg i, loc := upd s.loc i none }, [.dropped .loc i])
  | .dArg 0 => if throws then none else some ({ s with f := .dFn }, [])
  | .dFn =>
    if throws then none
    else some ({ s with f := .over, loc := upd s.loc c.n none }, [.dropped .loc c.n])
  | .over => if throws then none else some ({ s with f := .ended }, [.over])
  | .ended => none
  | .kMem (i + 1) => if throws then none else some ({ s with f := .kMem i, mem := upd s.mem i none }, [.dropped .mem i])
  | .kMem 0 => if throws then none else some ({ s with f := .kFn }, [])
  | .kFn =>
    if throws then none
    else some ({ s with f := .free, mem := upd s.mem c.n none }, [.dropped .mem c.n])
  | .free => if throws then none else some ({ s with f := .gone }, [.freed])
  | .gone => none

def step (c : Cfg) (s : State) (e : Event) : Option (State × List Obs) :=
  if s.dead then none
  else match e with
  | .go t => go c s t
  | .run t => run c s t
  | .join =>           -- `src/fiber.cpp:43-56`
    if s.l = .done ∧ s.handle = true ∧ s.f = .ended then some (release c { s with handle := false }, [.joined]) else none
  | .detach =>         -- `src/fiber.cpp:58-65`
    if s.l = .done ∧ s.handle = true then some (release c { s with handle := false }, []) else none
  | .reap =>           -- `src/scheduler.cpp:25-46`
    if s.f = .ended ∧ s.sched = true then some (release c { s with sched := false }, []) else none

end Verif.Launch
