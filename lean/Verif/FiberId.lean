import Verif.StackLayout

/-!
# Fiber ids and kinds of fibers

`context::id` (`include/boost/fiber/context.hpp:175-227`), `context::get_id` (`src/context.cpp:172-175`), `fiber::get_id`
(`include/boost/fiber/fiber.hpp:203-205`), `type.hpp`, `context::is_context` (`context.hpp:295-297`), and which memory
the control blocks occupy: `new main_context{}` (`src/context.cpp:98`), `make_dispatcher_context`, `make_worker_context`.

Pointers are compared as addresses; that the built-in `<` on pointers to different objects does so is assumed. The memory
allocators are assumed to return memory that nobody else uses.
-/

namespace Verif.Ident

open Verif.Layout

/-! ## `context::id` -/

/-- `impl_`; 0 is the null pointer. -/
abbrev Id := Addr

/-- `id()` -/
def none_ : Id := 0

def eq (a b : Id) : Bool := a == b                       -- `:187-189`
def ne (a b : Id) : Bool := a != b                       -- `:191-193`
def lt (a b : Id) : Bool := a.ult b                      -- `:195-197`
def gt (a b : Id) : Bool := b.ult a                      -- `:199-201`
def le (a b : Id) : Bool := ! gt a b                     -- `:203-205`
def ge (a b : Id) : Bool := ! lt a b                     -- `:207-209`
def toBool (a : Id) : Bool := a != 0                     -- `:220-222`
def not (a : Id) : Bool := a == 0                        -- `:224-226`

/-! ## `type` -/

/-- `enum class type` (`type.hpp:44-50`), as the `unsigned int` the operators use (`:52-77`). -/
abbrev Ty := BitVec 32

def tyNone : Ty := 0
def tyMain : Ty := 1 <<< 1
def tyDispatcher : Ty := 1 <<< 2
def tyWorker : Ty := 1 <<< 3
def tyPinned : Ty := tyMain ||| tyDispatcher

/-- `context::is_context` (`context.hpp:295-297`). -/
def isContext (ty t : Ty) : Bool := tyNone != (ty &&& t)

/-! ## Where control blocks are -/

inductive Kind
  | main | dispatcher | worker
  deriving DecidableEq, Repr

/-- `type_` as the constructors set it (`src/context.cpp:27`, `:46`; `context.hpp:464`). -/
def Kind.ty : Kind → Ty
  | .main => tyMain
  | .dispatcher => tyDispatcher
  | .worker => tyWorker

/-- A fiber that exists. -/
structure Rec where
  fiber : Fid
  kind : Kind
  /-- `this` of its `context` -/
  this : Addr
  /-- the memory allocated for it: `[lo, lo + len)` -/
  lo : Nat
  len : Nat
  deriving DecidableEq, Repr

structure State where
  live : List Rec
  /-- fibers there have been -/
  used : List Fid

inductive Event
  /-- a thread's main fiber: its context of `n` bytes is allocated at `a` -/
  | main (f : Fid) (a n : Addr)
  /-- a fiber with a stack of its own -/
  | onStack (f : Fid) (k : Kind) (s : Stack) (n : Addr)
  /-- the control block and the stack are freed -/
  | free (f : Fid)
  deriving DecidableEq, Repr

inductive Obs
  /-- `get_id()` of a fiber that has just been created -/
  | id (f : Fid) (i : Id)
  | gone (f : Fid)
  deriving DecidableEq, Repr

def init : State := ⟨[], []⟩

/-- The allocator returns unused memory, not at the null address. -/
def unused (s : State) (lo len : Nat) : Bool :=
  decide (0 < lo) && s.live.all fun r => decide (lo + len ≤ r.lo) || decide (r.lo + r.len ≤ lo)

def step (s : State) : Event → Option (State × List Obs)
  | .main f a n =>
    if f ∉ s.used ∧ 0 < n.toNat ∧ unused s a.toNat n.toNat = true then
      some ({ live := ⟨f, .main, a, a.toNat, n.toNat⟩ :: s.live, used := f :: s.used }, [.id f a])
    else none
  | .onStack f k st n =>
    if f ∉ s.used ∧ k ≠ .main ∧ 0 < n.toNat ∧ n.toNat + 255 ≤ st.size.toNat ∧ st.size.toNat ≤ st.sp.toNat ∧
        unused s (st.sp.toNat - st.size.toNat) st.size.toNat = true then
      some ({ live := ⟨f, k, storage st n, st.sp.toNat - st.size.toNat, st.size.toNat⟩ :: s.live, used := f :: s.used }, [.id f (storage st n)])
    else none
  | .free f => if (s.live.any fun r => r.fiber == f) = true then some ({ s with live := s.live.filter fun r => r.fiber != f }, [.gone f]) else none

end Verif.Ident
