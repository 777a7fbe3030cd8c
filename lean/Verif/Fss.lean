import Verif.Base

/-!
# Fiber-specific pointers

`fiber_specific_ptr` (`include/boost/fiber/fss.hpp`), the map in the control block of a fiber (`src/context.cpp:342-372`) and the clean-up when a fiber
ends (`src/context.cpp:265-280`). An event is one call; the map of a fiber is only accessed by the fiber itself, so that
calls of different fibers do not interfere. Cleanup functions do not use fiber-specific pointers themselves (see `Verif.FssRe`
for those that do).
-/

namespace Verif.Fss

/-- A `fiber_specific_ptr`: its address, the key of the map (`src/context.cpp:344,355`). -/
abbrev Addr := Nat

/-- A pointer; 0 is `nullptr`. -/
abbrev Ptr := Nat

/-- The identity of a cleanup function object (`fss.hpp:24-47`, `detail/fss.hpp:26-51`). -/
abbrev Fn := Nat

/-- `fss_data_t`, `include/boost/fiber/context.hpp:118-136`: a `std::map`, that is, a list sorted by key. -/
abbrev Map := List (Addr × Ptr × Fn)

/-- `std::map::find`. -/
def find (a : Addr) : Map → Option (Ptr × Fn)
  | [] => none
  | (b, d) :: m => if a = b then some d else find a m

/-- `std::map::insert` of a new key. -/
def insert (a : Addr) (d : Ptr × Fn) : Map → Map
  | [] => [(a, d)]
  | (b, e) :: m => if a < b then (a, d) :: (b, e) :: m else (b, e) :: insert a d m

/-- Assignment through an iterator. -/
def assign (a : Addr) (d : Ptr × Fn) : Map → Map
  | [] => []
  | (b, e) :: m => if a = b then (b, d) :: m else (b, e) :: assign a d m

/-- `std::map::erase` of an iterator. -/
def erase (a : Addr) : Map → Map
  | [] => []
  | (b, e) :: m => if a = b then m else (b, e) :: erase a m

/-- `context::get_fss_data`, `src/context.cpp:343-347`. -/
def getData (a : Addr) (m : Map) : Ptr := match find a m with
  | some d => d.1
  | none => 0

/-- `context::set_fss_data`, `src/context.cpp:350-372`: the new map, and the call of a cleanup function if there is one. -/
def setData (a : Addr) (fn : Fn) (v : Ptr) (existing : Bool) (m : Map) : Map × List (Fn × Ptr) :=
  match find a m with
  | some (p, g) => (if v ≠ 0 then assign a (v, fn) m else erase a m, if existing then [(g, p)] else [])
  | none => (insert a (v, fn) m, [])

inductive Obs
  /-- a `fiber_specific_ptr` with cleanup function `fn` was constructed -/
  | made (a : Addr) (fn : Fn)
  /-- `get()` returned -/
  | got (f : Fid) (a : Addr) (r : Ptr)
  /-- `reset( v)` stored a pointer -/
  | stored (f : Fid) (a : Addr) (v : Ptr)
  /-- `release()` returned -/
  | released (f : Fid) (a : Addr) (r : Ptr)
  /-- fiber `f` called the cleanup function on the pointer `v` it had stored in `a` -/
  | cleanup (f : Fid) (a : Addr) (fn : Fn) (v : Ptr)
  /-- the `fiber_specific_ptr` was destroyed by fiber `f`, whose pointer was `r` -/
  | destroyed (f : Fid) (a : Addr) (r : Ptr)
  /-- the fiber has ended -/
  | exited (f : Fid)
  /-- the fiber was the main fiber of a thread, and the thread has ended -/
  | gone (f : Fid)
  deriving DecidableEq, Repr

structure State where
  /-- the main fibers of the threads -/
  main : Fid → Bool
  map : Fid → Map
  /-- the `fiber_specific_ptr` at an address, with its `cleanup_fn_` -/
  obj : Addr → Option Fn
  done : Fid → Bool

def init (main : Fid → Bool) : State := ⟨main, fun _ => [], fun _ => none, fun _ => false⟩

inductive Event
  | make (a : Addr) (fn : Fn)
  | get (f : Fid) (a : Addr)
  | reset (f : Fid) (a : Addr) (v : Ptr)
  | release (f : Fid) (a : Addr)
  | destroy (f : Fid) (a : Addr)
  | exit (f : Fid)
  deriving DecidableEq, Repr

def cleaned (f : Fid) (a : Addr) (l : List (Fn × Ptr)) : List Obs := l.map fun d => .cleanup f a d.1 d.2

def step (s : State) : Event → Option (State × List Obs)
  -- `fiber_specific_ptr` constructors, `fss.hpp:52-58`
  | .make a fn => if s.obj a = none then some ({ s with obj := upd s.obj a (some fn) }, [.made a fn]) else none
  -- `get`, `fss.hpp:71-75`
  | .get f a =>
    if s.done f then none else
    match s.obj a with
    | none => none
    | some _ => some (s, [.got f a (getData a (s.map f))])
  -- `reset`, `fss.hpp:92-98`
  | .reset f a v =>
    if s.done f then none else
    match s.obj a with
    | none => none
    | some fn =>
      if getData a (s.map f) ≠ v then
        let r := setData a fn v true (s.map f)
        some ({ s with map := upd s.map f r.1 }, cleaned f a r.2 ++ [.stored f a v])
      else some (s, [])
  -- `release`, `fss.hpp:85-90`
  | .release f a =>
    if s.done f then none else
    match s.obj a with
    | none => none
    | some fn => some ({ s with map := upd s.map f (setData a fn 0 false (s.map f)).1 }, [.released f a (getData a (s.map f))])
  -- destructor, `fss.hpp:60-66`
  | .destroy f a =>
    if s.done f then none else
    match s.obj a with
    | none => none
    | some fn =>
      let r := setData a fn 0 true (s.map f)
      some ({ s with map := upd s.map f r.1, obj := upd s.obj a none }, cleaned f a r.2 ++ [.destroyed f a (getData a (s.map f))])
  | .exit f =>
    if s.done f then none
    -- the control block of a main fiber is deleted by `context_initializer::deinitialize`, `src/context.cpp:109-116`; neither it
    -- nor `~context` (`159-170`) nor the destructor of the map calls a cleanup function
    else if s.main f then some ({ s with map := upd s.map f [], done := upd s.done f true }, [.gone f])
    -- `context::terminate`, `src/context.cpp:273-277`
    else some ({ s with map := upd s.map f [], done := upd s.done f true },
      (s.map f).map (fun e => .cleanup f e.1 e.2.2 e.2.1) ++ [.exited f])

end Verif.Fss
