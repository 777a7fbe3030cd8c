import Verif.MonitorHand

/-!
# The buffered channel on weak memory

`buffered_channel` (`include/boost/fiber/buffered_channel.hpp`): all members are protected by the spinlock `splk_` (`:43`), which the operations take by calling
`try_lock` and `yield` until it succeeds (`:83-88,148-152`).

Simplifications: the elements are numbers. The constants `capacity_` and `slots_` are not counted as memory. A member that is read several times in
the same critical section is read once. The wait queues are numbers (which do not count the elements exactly: `notify_one` skips fibers that have been woken otherwise); a fiber
that suspends may go on at any time. The operations with a timeout
get a number that says how many times they wait before the time is over; since it is arbitrary, all cases are covered.
-/

namespace Verif.Monitor.Chan

open Verif.Rtm (Tid Lock Addr Req Done Hist Prog mine owner value Legal Allowed holding)
open Verif.WeakDrf Verif.Monitor

/-- Channels: `cap o` is the capacity of channel `o` (`buffered_channel.hpp:65-72`), `w` a bound of all capacities. -/
structure Chans where
  cap : Obj → Nat
  w : Nat
  fits : ∀ o, cap o ≤ w
  /-- a capacity is at least 2 (`:67`) -/
  two : ∀ o, 2 ≤ cap o

inductive Op
  | tryPush (v : Nat)
  | push (v : Nat)
  | pushUntil (v : Nat) (n : Nat)
  /-- the time is over -/
  | pushLate (v : Nat)
  | tryPop
  | pop
  | popUntil (n : Nat)
  | popLate
  | close
  | isClosed
  deriving DecidableEq, Repr

/-- `channel_op_status`, with the value of a successful `pop`. -/
inductive Res
  | success
  | value (v : Nat)
  | full
  | empty
  | closed
  | timeout
  | flag (b : Bool)
  | none
  /-- an index out of range: undefined behaviour -/
  | oob
  deriving DecidableEq, Repr

/-- Where the user's data are. -/
def dataAt (a : Nat) : Addr := 2 * a

variable (C : Chans)

/-- Where member `k` of channel `o` is. -/
def member (o : Obj) (k : Nat) : Addr := 2 * ((C.w + 5) * o + k) + 1

/-- `closed_` -/
def closedAt (o : Obj) : Addr := member C o 0
/-- `pidx_` -/
def pidxAt (o : Obj) : Addr := member C o 1
/-- `cidx_` -/
def cidxAt (o : Obj) : Addr := member C o 2
/-- `waiting_producers_` -/
def producersAt (o : Obj) : Addr := member C o 3
/-- `waiting_consumers_` -/
def consumersAt (o : Obj) : Addr := member C o 4
/-- `slots_[i]` -/
def slotAt (o : Obj) (i : Nat) : Addr := member C o (5 + i)

/-- The object a variable is a member of. -/
def home (a : Addr) : Option Obj := if a % 2 = 0 then none else some (a / 2 / (C.w + 5))

theorem home_member (o : Obj) (k : Nat) (hk : k < C.w + 5) : home C (member C o k) = some o := by
  have h : ∀ o w k : Nat, k < w + 5 → (2 * ((w + 5) * o + k) + 1) % 2 = 1 ∧ (2 * ((w + 5) * o + k) + 1) / 2 / (w + 5) = o := by
    intro o w k hk
    refine ⟨by omega, ?_⟩
    have h1 : (2 * ((w + 5) * o + k) + 1) / 2 = (w + 5) * o + k := by omega
    rw [h1, Nat.mul_add_div (by omega), Nat.div_eq_of_lt hk, Nat.add_zero]
  simp [home, member, h o C.w k hk]

theorem home_data (a : Nat) : home C (dataAt a) = none := by simp [home, dataAt]

abbrev Code := Sec Op Res

/-- `wait_queue::notify_one`, `src/waker.cpp:49-58` -/
def notifyOne (q : Addr) (k : Code) : Code := .read q fun n => if n = 0 then k else .write q (n - 1) k

/-- `wait_queue::notify_all`, `src/waker.cpp:60-67` -/
def notifyAll (q : Addr) (k : Code) : Code := .write q 0 k

/-- `wait_queue::suspend_and_wait` and the first part of `suspend_and_wait_until`, `src/waker.cpp:14-32`: the fiber is added to the queue, the lock is released. -/
def wait (q : Addr) (op : Op) : Code := .read q fun n => .write q (n + 1) (.again op)

/-- The second part of `suspend_and_wait_until` when the time is over, `src/waker.cpp:32-45`: the fiber is removed from the queue. -/
def late (q : Addr) : Code := .read q fun n => if n = 0 then .ret .timeout else .write q (n - 1) (.ret .timeout)

/-- The critical section of the operations that push: `buffered_channel.hpp:113-122,153-163,215-227`. What a full channel means differs. -/
def pushing (o : Obj) (v : Nat) (full : Code) : Code :=
  .read (closedAt C o) fun b => if b ≠ 0 then .ret .closed else
  .read (cidxAt C o) fun c => .read (pidxAt C o) fun p =>
    if c = (p + 1) % C.cap o then full
    else if C.cap o ≤ p then .ret .oob
    else .write (slotAt C o p) v (.write (pidxAt C o) ((p + 1) % C.cap o) (notifyOne (consumersAt C o) (.ret .success)))

/-- The critical section of the operations that pop: `buffered_channel.hpp:266-274,285-295,341-353`. What an empty channel means differs. -/
def popping (o : Obj) (empty : Code) : Code :=
  .read (cidxAt C o) fun c => .read (pidxAt C o) fun p =>
    if c = p then .read (closedAt C o) fun b => if b ≠ 0 then .ret .closed else empty
    else if C.cap o ≤ c then .ret .oob
    else .read (slotAt C o c) fun v => .write (cidxAt C o) ((c + 1) % C.cap o) (notifyOne (producersAt C o) (.ret (.value v)))

/-- The critical sections of a channel. (`value_pop`, `:299-321`, is `pop` with an exception for `closed`.) -/
def sec (o : Obj) : Op → Code
  | .tryPush v => pushing C o v (.ret .full)
  | .push v => pushing C o v (wait (producersAt C o) (.push v))
  | .pushUntil v 0 => pushing C o v (wait (producersAt C o) (.pushLate v))
  | .pushUntil v (n + 1) => pushing C o v (wait (producersAt C o) (.pushUntil v n))
  | .pushLate _ => late (producersAt C o)
  | .tryPop => popping C o (.ret .empty)
  | .pop => popping C o (wait (consumersAt C o) .pop)
  | .popUntil 0 => popping C o (wait (consumersAt C o) .popLate)
  | .popUntil (n + 1) => popping C o (wait (consumersAt C o) (.popUntil n))
  | .popLate => late (consumersAt C o)
  -- `:92-104`
  | .close => .read (closedAt C o) fun b => if b ≠ 0 then .ret .none else
      .write (closedAt C o) 1 (notifyAll (producersAt C o) (notifyAll (consumersAt C o) (.ret .none)))
  -- `:82-90`
  | .isClosed => .read (closedAt C o) fun b => .ret (.flag (b != 0))

theorem within (o : Obj) (_ : Tid) (op : Op) : (sec C o op).Within (home C) o := by
  have h0 := home_member C o 0 (by omega)
  have h1 := home_member C o 1 (by omega)
  have h2 := home_member C o 2 (by omega)
  have h3 := home_member C o 3 (by omega)
  have h4 := home_member C o 4 (by omega)
  have h5 : ∀ i, i < C.cap o → home C (member C o (5 + i)) = some o := fun i hi => home_member C o (5 + i) (by have := C.fits o; omega)
  have hno : ∀ q k, home C q = some o → Sec.Within (home C) o k → Sec.Within (home C) o (notifyOne q k) := by
    intro q k hq hk
    refine ⟨hq, fun v => ?_⟩
    try dsimp only
    split
    · exact hk
    · exact ⟨hq, hk⟩
  have hpush : ∀ v k, Sec.Within (home C) o k → Sec.Within (home C) o (pushing C o v k) := by
    intro v k hk
    refine ⟨h0, fun b => ?_⟩
    try dsimp only
    split
    · trivial
    · refine ⟨h2, fun c => ⟨h1, fun p => ?_⟩⟩
      try dsimp only
      split
      · exact hk
      · try dsimp only
        split
        · trivial
        · exact ⟨h5 _ (by omega), h1, hno _ _ h4 trivial⟩
  have hpop : ∀ k, Sec.Within (home C) o k → Sec.Within (home C) o (popping C o k) := by
    intro k hk
    refine ⟨h2, fun c => ⟨h1, fun p => ?_⟩⟩
    try dsimp only
    split
    · refine ⟨h0, fun b => ?_⟩
      try dsimp only
      split
      · trivial
      · exact hk
    · try dsimp only
      split
      · trivial
      · exact ⟨h5 _ (by omega), fun v => ⟨h2, hno _ _ h3 trivial⟩⟩
  have hw : ∀ q op, home C q = some o → Sec.Within (home C) o (wait q op) := fun q op hq => ⟨hq, fun v => ⟨hq, trivial⟩⟩
  have hl : ∀ q, home C q = some o → Sec.Within (home C) o (late q) := by
    intro q hq
    refine ⟨hq, fun v => ?_⟩
    try dsimp only
    split
    · trivial
    · exact ⟨hq, trivial⟩
  unfold sec
  split
  · exact hpush _ _ trivial
  · exact hpush _ _ (hw _ _ h3)
  · exact hpush _ _ (hw _ _ h3)
  · exact hpush _ _ (hw _ _ h3)
  · exact hl _ h3
  · exact hpop _ trivial
  · exact hpop _ (hw _ _ h4)
  · exact hpop _ (hw _ _ h4)
  · exact hpop _ (hw _ _ h4)
  · exact hl _ h4
  · refine ⟨h0, fun b => ?_⟩
    try dsimp only
    split
    · trivial
    · exact ⟨h0, h3, h4, trivial⟩
  · exact ⟨h0, fun b => trivial⟩

/-- The buffered channels. -/
def lib : Lib Op Res := Lib.of (fun o _ op => sec C o op) (home C) (fun _ => true) (within C)

/-! ## Specification -/

/-- The element an operation wants to push. -/
def offer : Op → Option Nat
  | .tryPush v => some v
  | .push v => some v
  | .pushUntil v _ => some v
  | .pushLate v => some v
  | _ => none

/-- What was pushed to a channel, in this order. -/
def pushed (o : Obj) : UHist Op Res → List Nat
  | [] => []
  | (_, .sect o' op _ (.ret .success)) :: h => if o' = o then pushed o h ++ (offer op).toList else pushed o h
  | _ :: h => pushed o h

/-- What was popped from a channel, in this order. -/
def popped (o : Obj) : UHist Op Res → List Nat
  | [] => []
  | (_, .sect o' _ _ (.ret (.value v))) :: h => if o' = o then popped o h ++ [v] else popped o h
  | _ :: h => popped o h

/-- The data an element is the name of, if it is one. -/
def name (named : Nat → Bool) (v : Nat) : Option Addr := if named v then some (dataAt v) else none

/-- Some of the elements are names of data (`named`): who pushes such a `v` hands the data `v` over, who pops `v` gets them. -/
def ports (named : Nat → Bool) : Ports Op Res where
  offers op := (offer op).bind (name named)
  gives op r := if r = .success then (offer op).bind (name named) else none
  takes _ r := match r with
    | .value v => name named v
    | _ => none
  offered op r a h := by
    split at h
    · exact h
    · cases h

end Verif.Monitor.Chan
