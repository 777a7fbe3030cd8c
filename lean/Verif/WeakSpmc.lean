import Verif.Weak
import Verif.Spmc
import Mathlib.Data.Nat.Pairing

/-!
# The lock-free ready queue under weak memory

`include/boost/fiber/detail/context_spmc_queue.hpp` once more, on the memory of `Verif/Weak.lean`, with the memory orders and
fences of the code. Thread 0 is the owner, thief `i` is thread `i + 1`. One step per atomic operation or fence.

* Every load of `top_`, and every load by a thief, may read any message the memory model allows; the event tells which.
* `bottom_`, `array_` and the elements are written by the owner only. So its own loads of them return what it stored last (`mine`), and
  a store takes the next timestamp (all its messages are in the order of its stores anyway).
* A new array (`resize`) is built before anybody else can reach it. The model makes its elements at once, as initial values of
  their locations; whoever reaches the array without the construction happening before commits a data race (on `capacity_`
  and `storage_`, which are not atomic), and is stopped there.
* `memory_order_seq_cst` compare-exchanges are treated as acquire/release, `memory_order_consume` as acquire.
* `data x` stands for the memory the owner's thread writes when the fiber `x` is created or runs (`work`). A thief reads a constant member
  of `x` (`is_context`), and all of it once it has obtained `x`. Both are checked for data races.
* The owner does not pop before its first push (see C51 for that defect).
-/

namespace Verif.WeakSpmc

open Weak
open Spmc (Arr sub)

/-! ## Locations -/

def TOP : Nat := 0
def BOT : Nat := 1
def ARR : Nat := 2
/-- the non-atomic members of array `j` -/
def members (j : Nat) : Nat := 4 * j + 3
/-- the fiber `x` itself: its stack, its non-atomic members -/
def data (x : Nat) : Nat := 4 * x + 5
/-- element `k` of array `j` -/
def elem (j k : Nat) : Nat := 2 * Nat.pair j k + 4

/-- A `context *`: 0 is `nullptr`. -/
def enc : Option Nat → Nat
  | none => 0
  | some x => x + 1

def dec : Nat → Option Nat
  | 0 => none
  | x + 1 => some x

inductive OPc
  | idle
  | pushTop (x : Nat)          -- `push`, before loading `top_`
  | pushGrow (x t : Nat)       -- has found the array full
  | pushSlot (x : Nat)         -- before storing the element
  | pushFence (x : Nat)        -- before the release fence
  | pushBot (x : Nat)          -- before storing `bottom_`
  | popFence (b : Nat)         -- `pop`, `bottom_` is decremented; before the seq_cst fence
  | popTop (b : Nat)           -- before loading `top_`
  | popCas (b x : Nat)         -- last element: before the compare-exchange
  | popFix (b : Nat)           -- before restoring `bottom_`
  deriving DecidableEq, Repr

inductive TPc
  | idle
  | fence (t : Nat)            -- `steal`, `top_` loaded; before the seq_cst fence
  | bot (t : Nat)              -- before loading `bottom_`
  | arr (t : Nat)              -- not empty; before loading `array_`
  | read (t j : Nat)           -- before loading the element
  | pin (t x : Nat)            -- before `ctx->is_context(type::pinned_context)`
  | cas (t x : Nat)            -- before the compare-exchange
  deriving DecidableEq, Repr

structure State where
  pinned : Nat → Bool          -- main and dispatcher fibers
  fix    : Bool                -- `array_.store( a, release)`; the code says `relaxed`
  cap0   : Nat                 -- capacity of the first array
  q      : List Nat            -- the fibers in the queue, oldest first (ghost)
  mem    : Mem
  own    : OPc
  th     : Nat → TPc

inductive Event
  | push (x : Nat) | pop | empty (t : Nat) | own (t : Nat)
  | steal (i t : Nat) | thief (i t : Nat)
  | work (x : Nat)             -- the owner creates the fiber `x` or lets it run
  deriving DecidableEq, Repr

inductive Obs
  | q (o : Spmc.Obs)
  /-- what `empty()` returned -/
  | empty (b : Bool)
  /-- data race: thief `i` uses an array whose construction does not happen before -/
  | race (i : Nat)
  /-- data race: thief `i` reads a constant member of the fiber `x`, whose construction does not happen before -/
  | unseen (i x : Nat)
  /-- data race: thief `i` has obtained `x`, but what `x` did before does not happen before -/
  | torn (i x : Nat)
  deriving DecidableEq, Repr

/-- The contents after an observation, oldest first. -/
def after (l : List Nat) : Obs → List Nat
  | .q o => Spmc.after l o
  | _ => l

def init (pinned : Nat → Bool) (fix : Bool) (cap : Nat) : State :=
  { pinned := pinned, fix := fix, cap0 := cap, q := [], mem := Weak.start (fun _ => 0), own := .idle, th := fun _ => .idle }

/-- Array `j` is made by doubling the capacity `j` times (`array::resize`, `:84-90`). -/
def State.cap (s : State) (j : Nat) : Nat := s.cap0 * 2 ^ j

/-- What the owner stored last in location `x`. -/
def mine (m : Mem) (x : Nat) : Nat :=
  match m.msg x (m.cur 0 x) with
  | none => 0
  | some g => g.val

/-- The owner stores `v` in location `x`. -/
def put (m : Mem) (x v : Nat) (r : Bool) : Option Mem := store m 0 x (m.cur 0 x + 1) v r

/-- The current array as the owner sees it. -/
def State.arr (s : State) : Arr := { cap := s.cap (mine s.mem ARR), slot := fun k => dec (mine s.mem (elem (mine s.mem ARR) k)) }

/-- The elements of the new array `j`. -/
def build (m : Mem) (j : Nat) (a : Arr) : Mem :=
  { m with msg := fun x t => if x % 2 = 0 ∧ 4 ≤ x ∧ (Nat.unpair ((x - 4) / 2)).1 = j ∧ t = 0
      then some ⟨enc (a.slot (Nat.unpair ((x - 4) / 2)).2), fun _ => 0⟩ else m.msg x t }

/-- `resize` and `array_.store( a, relaxed)` (`:128-131`); `t`: the value of `top_`. -/
def grow (s : State) (t : Nat) : Option Mem :=
  let j := mine s.mem ARR + 1
  put (touch (build s.mem j (s.arr.grow (mine s.mem BOT) t)) 0 (members j)).2 ARR j s.fix

/-- The owner goes on (`push` `:121-136`, `pop` `:138-164`). -/
def ownStep (s : State) (t : Nat) : Option (State × List Obs) :=
  match s.own with
  | .idle => none
  -- `top_.load( acquire)`
  | .pushTop x =>
    match load s.mem 0 TOP t true with
    | none => none
    | some (v, m) =>
      if s.cap (mine s.mem ARR) - 1 < sub (mine s.mem BOT) v then some ({ s with mem := m, own := .pushGrow x v }, [])
      else some ({ s with mem := m, own := .pushSlot x }, [])
  | .pushGrow x v =>
    match grow s v with
    | none => none
    | some m => some ({ s with mem := m, own := .pushSlot x }, [])
  -- `array::push`, `:72-76`, `:133`
  | .pushSlot x =>
    match put s.mem (elem (mine s.mem ARR) (mine s.mem BOT % s.cap (mine s.mem ARR))) (enc (some x)) false with
    | none => none
    | some m => some ({ s with mem := m, own := .pushFence x }, [])
  | .pushFence x => some ({ s with mem := fenceRel s.mem 0, own := .pushBot x }, [])
  -- `bottom_.store( bottom + 1, relaxed)`
  | .pushBot x =>
    match put s.mem BOT (mine s.mem BOT + 1) false with
    | none => none
    | some m => some ({ s with mem := m, own := .idle }, [.q (.pushed x)])
  | .popFence b => some ({ s with mem := fenceSc s.mem 0, own := .popTop b }, [])
  -- `top_.load( relaxed)`, and the element, `:143-149`
  | .popTop b =>
    match load s.mem 0 TOP t false with
    | none => none
    | some (v, m) =>
      if v ≤ b then
        match dec (mine s.mem (elem (mine s.mem ARR) (b % s.cap (mine s.mem ARR)))) with
        | none => some ({ s with mem := m, own := if v = b then .popFix b else .idle }, [.q .ub, .q (.popped none)])
        | some x =>
          if v = b then some ({ s with mem := m, own := .popCas b x }, [])
          else some ({ s with mem := m, own := .idle }, [.q (.popped (some x))])
      else some ({ s with mem := m, own := .popFix b }, [.q (.popped none)])
  -- `top_.compare_exchange_strong( top, top + 1, seq_cst, relaxed)`
  | .popCas b x =>
    match cas s.mem 0 TOP t b (b + 1) true true false with
    | none => none
    | some (c, _, m) => some ({ s with mem := m, own := .popFix b }, [.q (.popped (if c then some x else none))])
  -- `bottom_.store( bottom + 1, relaxed)`
  | .popFix b =>
    match put s.mem BOT (b + 1) false with
    | none => none
    | some m => some ({ s with mem := m, own := .idle }, [])

/-- Thief `i` goes on (`steal` `:166-188`). -/
def thiefStep (s : State) (i t : Nat) : Option (State × List Obs) :=
  match s.th i with
  | .idle => none
  | .fence v => some ({ s with mem := fenceSc s.mem (i + 1), th := upd s.th i (.bot v) }, [])
  -- `bottom_.load( acquire)`
  | .bot v =>
    match load s.mem (i + 1) BOT t true with
    | none => none
    | some (b, m) =>
      if v < b then some ({ s with mem := m, th := upd s.th i (.arr v) }, [])
      else some ({ s with mem := m, th := upd s.th i .idle }, [.q (.stolen i none)])
  -- `array_.load( consume)`; `a->pop( top)` reads `capacity_` and `storage_`
  | .arr v =>
    match load s.mem (i + 1) ARR t true with
    | none => none
    | some (j, m) =>
      if m.cur (i + 1) (members j) < m.last (members j) then some ({ s with mem := m, th := upd s.th i .idle }, [.race i])
      else some ({ s with mem := m, th := upd s.th i (.read v j) }, [])
  -- `array::pop`, `:78-82`
  | .read v j =>
    match load s.mem (i + 1) (elem j (v % s.cap j)) t false with
    | none => none
    | some (c, m) =>
      match dec c with
      | none => some ({ s with mem := m, th := upd s.th i .idle }, [.q .ub])
      | some x => some ({ s with mem := m, th := upd s.th i (.pin v x) }, [])
  -- `ctx->is_context( type::pinned_context)`
  | .pin v x =>
    let r := if s.mem.cur (i + 1) (data x) = 0 ∧ 0 < s.mem.last (data x) then [Obs.unseen i x] else []
    if s.pinned x then some ({ s with th := upd s.th i .idle }, .q (.touch i x) :: r ++ [.q (.stolen i none)])
    else some ({ s with th := upd s.th i (.cas v x) }, .q (.touch i x) :: r)
  -- `top_.compare_exchange_strong( top, top + 1, seq_cst, relaxed)`; the thief will let `x` run
  | .cas v x =>
    match cas s.mem (i + 1) TOP t v (v + 1) true true false with
    | none => none
    | some (c, _, m) =>
      if c then
        some ({ s with mem := m, th := upd s.th i .idle },
          .q (.stolen i (some x)) :: if m.cur (i + 1) (data x) < m.last (data x) then [.torn i x] else [])
      else some ({ s with mem := m, th := upd s.th i .idle }, [.q (.stolen i none)])

def act (s : State) : Event → Option (State × List Obs)
  | .push x => if s.own = .idle then some ({ s with own := .pushTop x }, []) else none
  -- `bottom_.store( bottom_.load( relaxed) - 1, relaxed)`, `:139-141`
  | .pop =>
    if s.own = .idle ∧ 0 < mine s.mem BOT then
      match put s.mem BOT (mine s.mem BOT - 1) false with
      | none => none
      | some m => some ({ s with mem := m, own := .popFence (mine s.mem BOT - 1) }, [])
    else none
  -- `empty`, `:115-119`, called by the owner
  | .empty t =>
    if s.own = .idle then
      match load s.mem 0 TOP t false with
      | none => none
      | some (v, m) => some ({ s with mem := m }, [.empty (mine s.mem BOT ≤ v)])
    else none
  | .own t => ownStep s t
  -- `top_.load( acquire)`
  | .steal i t =>
    if s.th i = .idle then
      match load s.mem (i + 1) TOP t true with
      | none => none
      | some (v, m) => some ({ s with mem := m, th := upd s.th i (.fence v) }, [])
    else none
  | .thief i t => thiefStep s i t
  -- a fiber that waits in the queue does not run
  | .work x => if s.own = .idle ∧ x ∉ s.q then some ({ s with mem := (touch s.mem 0 (data x)).2 }, []) else none

def step (s : State) (e : Event) : Option (State × List Obs) :=
  (act s e).map fun r => ({ r.1 with q := r.2.foldl after s.q }, r.2)

/-! ## Specification -/

/-- What each operation may return; `empty()` may tell `false` too late, but not `true` too early. -/
def ok (l : List Nat) : Obs → Prop
  | .q o => Spmc.ok l o
  | .empty b => b = true → l = []
  | _ => True

def replay (tr : List Obs) : List Nat := tr.foldl after []

def Runs : List Nat → List Obs → Prop
  | _, [] => True
  | l, x :: tr => ok l x ∧ Runs (after l x) tr

theorem Runs.append {l : List Nat} {a b : List Obs} (h1 : Runs l a) (h2 : Runs (a.foldl after l) b) : Runs l (a ++ b) := by
  induction a generalizing l with
  | nil => exact h2
  | cons x a ih => exact ⟨h1.1, ih h1.2 h2⟩

theorem Runs.split {l : List Nat} {a b : List Obs} {x : Obs} (h : Runs l (a ++ x :: b)) : ok (a.foldl after l) x := by
  induction a generalizing l with
  | nil => exact h.1
  | cons y a ih => exact ih h.2

/-- The observations that concern the contents. -/
def Obs.q? : Obs → Option Spmc.Obs
  | .q o => some o
  | _ => none

theorem runs_q {l : List Nat} {tr : List Obs} (h : Runs l tr) : Spmc.Runs l (tr.filterMap Obs.q?) := by
  induction tr generalizing l with
  | nil => trivial
  | cons x tr ih =>
    cases x with
    | q o => exact ⟨h.1, ih h.2⟩
    | empty b => exact ih h.2
    | race i => exact ih h.2
    | unseen i x => exact ih h.2
    | torn i x => exact ih h.2

end Verif.WeakSpmc
