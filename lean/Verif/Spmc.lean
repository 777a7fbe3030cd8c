import Verif.Base

/-!
# The lock-free ready queue of `work_stealing`

`include/boost/fiber/detail/context_spmc_queue.hpp` (used if `BOOST_FIBERS_USE_SPMC_QUEUE` is defined): one owner thread
pushes and pops at the bottom, any number of thieves steal at the top. One step per access to `top_`, `bottom_`, `array_`
or an array element by anybody but its only writer: `bottom_`, `array_` and the elements are written by the owner only,
so the owner's own loads of them are joined with its next access. Sequential consistency (the code uses weaker orders
and fences). `size_t` subtraction wraps (64 bits); the counters are not bounded otherwise.
-/

namespace Verif.Spmc

/-- `class array` (`:44-91`); unwritten elements are `nullptr`. -/
structure Arr where
  cap  : Nat
  slot : Nat → Option Nat

inductive OPc
  | idle
  | pushTop (x : Nat)          -- `push`, before loading `top_`
  | pushGrow (x t : Nat)       -- has found the array full
  | pushSlot (x : Nat)         -- before storing the element
  | pushBot (x : Nat)          -- before storing `bottom_`
  | popTop (b : Nat)           -- `pop`, `bottom_` is decremented; before loading `top_`
  | popCas (b x : Nat)         -- last element: before the compare-exchange
  | popFix (b : Nat)           -- before restoring `bottom_`
  deriving DecidableEq, Repr

inductive TPc
  | idle
  | bot (t : Nat)              -- `steal`, `top_` loaded; before loading `bottom_`
  | arr (t : Nat)              -- not empty; before loading `array_`
  | read (t a : Nat)           -- before loading the element
  | pin (t x : Nat)            -- before `ctx->is_context(type::pinned_context)`
  | cas (t x : Nat)            -- before the compare-exchange
  deriving DecidableEq, Repr

structure State where
  pinned : Nat → Bool          -- main and dispatcher fibers
  lax    : Bool                -- the owner may call `pop` before the first `push`
  top    : Nat
  bottom : Nat
  arrs   : Nat → Arr           -- all arrays (the old ones are kept until the queue is destroyed)
  cur    : Nat                 -- `array_`
  own    : OPc
  th     : Nat → TPc

inductive Event
  | push (x : Nat) | pop | empty | own
  | steal (i : Nat) | thief (i : Nat)

inductive Obs
  | pushed (x : Nat)
  | popped (x : Option Nat)    -- takes effect here; `none`: returns `nullptr`
  | stolen (i : Nat) (x : Option Nat)
  | empty (b : Bool)
  | touch (i x : Nat)          -- thief `i` reads a member of the fiber `x`
  | ub                         -- the element is `nullptr` (assertion fails; `steal` dereferences it)
  deriving DecidableEq, Repr

def W : Nat := 2 ^ 64

/-- `a - b` in `size_t`. -/
def sub (a b : Nat) : Nat := if b ≤ a then a - b else W + a - b

def init (pinned : Nat → Bool) (lax : Bool) (cap : Nat) : State :=
  { pinned := pinned, lax := lax, top := 0, bottom := 0, arrs := fun _ => { cap := cap, slot := fun _ => none }, cur := 0, own := .idle, th := fun _ => .idle }

/-- `array::push` (`:72-76`). -/
def Arr.put (a : Arr) (i : Nat) (x : Option Nat) : Arr :=
  { a with slot := fun j => if j = i % a.cap then x else a.slot j }

/-- `array::pop` (`:78-82`). -/
def Arr.get (a : Arr) (i : Nat) : Option Nat := a.slot (i % a.cap)

/-- `array::resize` (`:84-90`). (The code's loop does not end if `bottom < top`; that is not reachable.) -/
def Arr.grow (a : Arr) (bottom top : Nat) : Arr :=
  (List.range' top (bottom - top)).foldl (fun d i => d.put i (a.get i)) { cap := 2 * a.cap, slot := fun _ => none }

/-- The owner goes on (`push` `:121-136`, `pop` `:138-164`). -/
def ownStep (s : State) : Option (State × List Obs) :=
  match s.own with
  | .idle => none
  | .pushTop x =>
    if (s.arrs s.cur).cap - 1 < sub s.bottom s.top then some ({ s with own := .pushGrow x s.top }, [])
    else some ({ s with own := .pushSlot x }, [])
  | .pushGrow x t =>
    some ({ s with arrs := upd s.arrs (s.cur + 1) ((s.arrs s.cur).grow s.bottom t), cur := s.cur + 1, own := .pushSlot x }, [])
  | .pushSlot x => some ({ s with arrs := upd s.arrs s.cur ((s.arrs s.cur).put s.bottom (some x)), own := .pushBot x }, [])
  | .pushBot x => some ({ s with bottom := s.bottom + 1, own := .idle }, [.pushed x])
  | .popTop b =>
    if s.top ≤ b then
      match (s.arrs s.cur).get b with
      | none => some ({ s with own := if s.top = b then .popFix b else .idle }, [.ub, .popped none])
      | some x =>
        if s.top = b then some ({ s with own := .popCas b x }, [])
        else some ({ s with own := .idle }, [.popped (some x)])
    else some ({ s with own := .popFix b }, [.popped none])
  | .popCas b x =>
    if s.top = b then some ({ s with top := b + 1, own := .popFix b }, [.popped (some x)])
    else some ({ s with own := .popFix b }, [.popped none])
  | .popFix b => some ({ s with bottom := b + 1, own := .idle }, [])

/-- Thief `i` goes on (`steal` `:166-188`). -/
def thiefStep (s : State) (i : Nat) : Option (State × List Obs) :=
  match s.th i with
  | .idle => none
  | .bot t =>
    if t < s.bottom then some ({ s with th := upd s.th i (.arr t) }, [])
    else some ({ s with th := upd s.th i .idle }, [.stolen i none])
  | .arr t => some ({ s with th := upd s.th i (.read t s.cur) }, [])
  | .read t a =>
    match (s.arrs a).get t with
    | none => some ({ s with th := upd s.th i .idle }, [.ub])
    | some x => some ({ s with th := upd s.th i (.pin t x) }, [])
  | .pin t x =>
    if s.pinned x then some ({ s with th := upd s.th i .idle }, [.touch i x, .stolen i none])
    else some ({ s with th := upd s.th i (.cas t x) }, [.touch i x])
  | .cas t x =>
    if s.top = t then some ({ s with top := t + 1, th := upd s.th i .idle }, [.stolen i (some x)])
    else some ({ s with th := upd s.th i .idle }, [.stolen i none])

def step (s : State) : Event → Option (State × List Obs)
  | .push x => if s.own = .idle then some ({ s with own := .pushTop x }, []) else none
  | .pop =>
    if s.own = .idle ∧ (s.lax = true ∨ 0 < s.bottom) then
      some ({ s with bottom := sub s.bottom 1, own := .popTop (sub s.bottom 1) }, [])
    else none
  | .empty => if s.own = .idle then some (s, [.empty (s.bottom ≤ s.top)]) else none   -- `empty` (`:115-119`)
  | .own => ownStep s
  | .steal i => if s.th i = .idle then some ({ s with th := upd s.th i (.bot s.top) }, []) else none
  | .thief i => thiefStep s i

/-! ## Specification: a double-ended queue -/

/-- The contents after an observation, oldest first. -/
def after (l : List Nat) : Obs → List Nat
  | .pushed x => l ++ [x]
  | .popped (some _) => l.dropLast
  | .stolen _ (some _) => l.tail
  | _ => l

/-- A pop returns the youngest element, and `nullptr` only if there is none; a successful steal returns the oldest. -/
def ok (l : List Nat) : Obs → Prop
  | .popped (some x) => ∃ l', l = l' ++ [x]
  | .popped none => l = []
  | .stolen _ (some x) => ∃ l', l = x :: l'
  | .empty b => b = true ↔ l = []
  | _ => True

def replay (tr : List Obs) : List Nat := tr.foldl after []

def Runs : List Nat → List Obs → Prop
  | _, [] => True
  | l, x :: tr => ok l x ∧ Runs (after l x) tr

theorem Runs.append {l : List Nat} {a b : List Obs} (h1 : Runs l a) (h2 : Runs (a.foldl after l) b) : Runs l (a ++ b) := by
  induction a generalizing l with
  | nil => exact h2
  | cons x a ih => exact ⟨h1.1, ih h1.2 h2⟩

theorem Runs.split {l : List Nat} {a b : List Obs} {x : Obs} (h : Runs l (a ++ x :: b)) : ok (a.foldl after l) x := by
  induction a generalizing l with
  | nil => exact h.1
  | cons y a ih => exact ih h.2

theorem Runs.left {l : List Nat} {a b : List Obs} (h : Runs l (a ++ b)) : Runs l a := by
  induction a generalizing l with
  | nil => trivial
  | cons y a ih => exact ⟨h.1, ih h.2⟩

/-! ## Arrays -/

theorem mod_ne {i j n : Nat} (h1 : i < j) (h2 : j < i + n) : i % n ≠ j % n := by
  intro h
  have h3 := Nat.sub_mod_eq_zero_of_mod_eq h.symm
  rw [Nat.mod_eq_of_lt (by omega)] at h3
  omega

theorem get_put (a : Arr) (i : Nat) (x : Option Nat) : (a.put i x).get i = x := by simp [Arr.put, Arr.get]

theorem get_put_ne (a : Arr) {i j : Nat} (x : Option Nat) (h : i % a.cap ≠ j % a.cap) : (a.put j x).get i = a.get i := by
  simp [Arr.put, Arr.get, h]

theorem grow_aux (a : Arr) (t n : Nat) (hn : n ≤ 2 * a.cap) :
    let g := (List.range' t n).foldl (fun d i => d.put i (a.get i)) ({ cap := 2 * a.cap, slot := fun _ => none } : Arr)
    g.cap = 2 * a.cap ∧ ∀ i, t ≤ i → i < t + n → g.get i = a.get i := by
  induction n with
  | zero => exact ⟨rfl, fun i h1 h2 => by omega⟩
  | succ n ih =>
    obtain ⟨h1, h2⟩ := ih (by omega)
    simp only [List.range'_1_concat, List.foldl_append, List.foldl_cons, List.foldl_nil]
    refine ⟨h1, fun i h3 h4 => ?_⟩
    by_cases hi : i = t + n
    · subst hi; exact get_put _ _ _
    · rw [get_put_ne _ _ (by rw [h1]; exact mod_ne (by omega) (by omega))]
      exact h2 i h3 (by omega)

theorem grow_spec (a : Arr) {b t : Nat} (h1 : t ≤ b) (h2 : b ≤ t + 2 * a.cap) :
    (a.grow b t).cap = 2 * a.cap ∧ ∀ i, t ≤ i → i < b → (a.grow b t).get i = a.get i := by
  have := grow_aux a t (b - t) (by omega)
  refine ⟨this.1, fun i h3 h4 => this.2 i h3 (by omega)⟩

end Verif.Spmc
