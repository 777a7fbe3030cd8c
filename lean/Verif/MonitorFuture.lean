import Verif.MonitorSec

/-!
# Promises and futures on weak memory

The shared state of `promise`, `packaged_task`, `future` and `shared_future` (`include/boost/fiber/future/detail/shared_state.hpp`): its members are protected by the mutex
`mtx_` of the library.

Simplifications: values are numbers (a value may stand for a pointer to data of the user), and a getter reads the value inside of its critical section, whereas `get()` of the code
returns a reference to it. Exceptions are numbered, `broken_promise` is number 0. `condition_variable` (its own spinlock and wait queue) is not modelled here: a
fiber that waits may go on at any time. The number of references to the state is not counted here (see `Verif/FutureHandles.lean`).
-/

namespace Verif.Monitor.Future

open Verif.Rtm (Tid Lock Addr Req Done Hist Prog mine)
open Verif.Monitor

/-- What a promise is set to. -/
inductive Out
  | value (v : Nat)
  | error (e : Nat)
  deriving DecidableEq, Repr

/-- `broken_promise`, `shared_state.hpp:57-59` -/
def broken : Out := .error 0

inductive Op
  /-- `promise::set_value`, `promise::set_exception`, `promise.hpp:94-99,123-135` -/
  | set (out : Out)
  /-- `~promise` after `get_future`, `promise.hpp:55-59` -/
  | destroy
  /-- `future::get`, `shared_future::get`, `future.hpp:143-150,306-311` -/
  | get
  /-- `future::wait`, `future.hpp:75-80` -/
  | wait
  /-- `future::get_exception_ptr`, `future.hpp:68-73` -/
  | getException
  /-- `future::wait_for` and `wait_until`, `future.hpp:82-96`; time is over when it has looked `n` times in vain after the first time -/
  | waitFor (n : Nat)
  deriving DecidableEq, Repr

/-- What the operations return. -/
inductive Res
  | ok
  /-- throws `promise_already_satisfied` -/
  | already
  | done
  /-- returns the value or throws the exception -/
  | got (out : Out)
  | ready
  | timeout
  /-- a null pointer -/
  | noError
  | hasError (e : Nat)
  deriving DecidableEq, Repr

/-- Where the user's data are. -/
def dataAt (a : Nat) : Addr := 2 * a

/-- `ready_`, `shared_state.hpp:44` -/
def readyAt (o : Obj) : Addr := 8 * o + 1

/-- `except_`, `shared_state.hpp:45`: 0 or the number of the exception, plus one -/
def excAt (o : Obj) : Addr := 8 * o + 3

/-- `storage_`, `shared_state.hpp:160` -/
def valAt (o : Obj) : Addr := 8 * o + 5

def home (a : Addr) : Option Obj := if a % 2 = 0 then none else some (a / 8)

theorem home_data (a : Nat) : home (dataAt a) = none := by simp [home, dataAt]

theorem home_ready (o : Obj) : home (readyAt o) = some o := by
  have h : ∀ m : Nat, (8 * m + 1) % 2 ≠ 0 ∧ (8 * m + 1) / 8 = m := fun m => by omega
  simp [home, readyAt, h o]

theorem home_exc (o : Obj) : home (excAt o) = some o := by
  have h : ∀ m : Nat, (8 * m + 3) % 2 ≠ 0 ∧ (8 * m + 3) / 8 = m := fun m => by omega
  simp [home, excAt, h o]

theorem home_val (o : Obj) : home (valAt o) = some o := by
  have h : ∀ m : Nat, (8 * m + 5) % 2 ≠ 0 ∧ (8 * m + 5) / 8 = m := fun m => by omega
  simp [home, valAt, h o]

/-- The critical sections. -/
def sec (o : Obj) : Op → Sec Op Res
  -- `set_value_`, `set_exception_`, `mark_ready_and_notify_`, `shared_state.hpp:47-52,63-70,162-178`
  | .set (.value v) => .read (readyAt o) fun r => if r ≠ 0 then .ret .already else .write (valAt o) v (.write (readyAt o) 1 (.ret .ok))
  | .set (.error e) => .read (readyAt o) fun r => if r ≠ 0 then .ret .already else .write (excAt o) (e + 1) (.write (readyAt o) 1 (.ret .ok))
  -- `owner_destroyed_`, `shared_state.hpp:54-61`
  | .destroy => .read (readyAt o) fun r => if r ≠ 0 then .ret .done else .write (excAt o) 1 (.write (readyAt o) 1 (.ret .done))
  -- `get_`, `shared_state.hpp:180-187`; `wait_`, `shared_state.hpp:78-81`
  | .get => .read (readyAt o) fun r => if r = 0 then .again .get else
      .read (excAt o) fun x => if x ≠ 0 then .ret (.got (.error (x - 1))) else .read (valAt o) fun v => .ret (.got (.value v))
  | .wait => .read (readyAt o) fun r => if r = 0 then .again .wait else .ret .ready
  -- `get_exception_ptr_`, `shared_state.hpp:72-76`
  | .getException => .read (readyAt o) fun r => if r = 0 then .again .getException else
      .read (excAt o) fun x => if x ≠ 0 then .ret (.hasError (x - 1)) else .ret .noError
  -- `wait_for_`, `wait_until_`, `shared_state.hpp:83-99`
  | .waitFor n => .read (readyAt o) fun r => if r ≠ 0 then .ret .ready else if n = 0 then .ret .timeout else .again (.waitFor (n - 1))

theorem within (o : Obj) (_ : Tid) (op : Op) : (sec o op).Within home o := by
  have h1 := home_ready o
  have h2 := home_exc o
  have h3 := home_val o
  have hif : ∀ {c : Prop} [Decidable c] {x y : Sec Op Res}, x.Within home o → y.Within home o → (if c then x else y).Within home o := by
    intro c _ x y hx hy; split <;> assumption
  match op with
  | .set (.value v) => exact ⟨h1, fun r => hif trivial ⟨h3, h1, trivial⟩⟩
  | .set (.error e) => exact ⟨h1, fun r => hif trivial ⟨h2, h1, trivial⟩⟩
  | .destroy => exact ⟨h1, fun r => hif trivial ⟨h2, h1, trivial⟩⟩
  | .get => exact ⟨h1, fun r => hif trivial ⟨h2, fun x => hif trivial ⟨h3, fun _ => trivial⟩⟩⟩
  | .wait => exact ⟨h1, fun r => hif trivial trivial⟩
  | .getException => exact ⟨h1, fun r => hif trivial ⟨h2, fun x => hif trivial trivial⟩⟩
  | .waitFor n => exact ⟨h1, fun r => hif trivial (hif trivial trivial)⟩

/-- Shared states. -/
def lib : Lib Op Res := Lib.of (fun o _ op => sec o op) home (fun _ => false) within

/-! ## Specification -/

/-- A result that says that the promise has been set, and what it says about the outcome. -/
def tells : Res → Out → Prop
  | .got out, out' => out' = out
  | .ready, _ => True
  | .already, _ => True
  | .noError, out' => ∃ v, out' = .value v
  | .hasError e, out' => out' = .error e
  | _, _ => True

/-- The result says that the promise has been set. -/
def late : Res → Bool
  | .got _ => true
  | .ready => true
  | .already => true
  | .noError => true
  | .hasError _ => true
  | _ => false

/-- What is published with a promise: `plan o out a i = some t` says that share `i` of the right to access `a` goes to thread `t` when promise `o` is set to `out`. -/
abbrev Plan := Obj → Out → Addr → Nat → Option Tid

variable (plan : Plan) (first : Addr → Nat → Tid)

/-- Thread `t` gets a share with the result `r`: it knows that the promise has been set, and to something with which the share was published for it. -/
def takes (o : Obj) (r : Res) (t : Tid) (a : Addr) (i : Nat) : Prop := late r = true ∧ ∀ out, tells r out → plan o out a i = some t

/-- The thread has got the share from `o` some time. -/
def taken (t : Tid) (p : List (UDone Op Res)) (o : Obj) (a : Addr) (i : Nat) : Prop := ∃ op r, .did o op r ∈ p ∧ takes plan o r t a i

/-- The thread has set the promise. -/
def hasSet (p : List (UDone Op Res)) (o : Obj) : Prop := ∃ out, .did o (.set out) .ok ∈ p

/-- A successful setting of the promise. -/
def setsOf (o : Obj) : UDone Op Res → Bool
  | .did o' (.set _) .ok => decide (o' = o)
  | _ => false

/-- What a thread keeps when an operation returns. -/
def keeps (p : List (UDone Op Res)) (o : Obj) (op : Op) (r : Res) (a : Addr) (i : Nat) : Prop :=
  match op, r with
  | .set out, .ok => plan o out a i = none
  | .destroy, _ => hasSet p o ∨ plan o broken a i = none
  | _, _ => True

/-- A thread with this past has the share: it had it in the beginning, or it got it (for the first time) from a promise, and it has not published it since. -/
def has (t : Tid) : List (UDone Op Res) → Addr → Nat → Prop
  | [], a, i => first a i = t
  | .did o op r :: p, a, i => keeps plan p o op r a i ∧ (has t p a i ∨ (takes plan o r t a i ∧ ¬ taken plan t p o a i))
  | _ :: p, a, i => has t p a i

/-- Threads read only data of which they have a share, write only data of which they have all shares, and publish only what they have. Every thread can tell from its own past. -/
def Planned (V : UProg Op Res) : Prop :=
  ∀ h t, ULegal lib V h →
    (∀ a, V t (upast h t) = some (.read a) → home a = none ∧ ∃ i, has plan first t (upast h t) a i) ∧
    (∀ a v, V t (upast h t) = some (.write a v) → home a = none ∧ ∀ i, has plan first t (upast h t) a i) ∧
    (∀ o out, V t (upast h t) = some (.call o (.set out)) → ∀ a i, plan o out a i ≠ none → has plan first t (upast h t) a i) ∧
    ∀ o, V t (upast h t) = some (.call o .destroy) → hasSet (upast h t) o ∨ ∀ a i, plan o broken a i ≠ none → has plan first t (upast h t) a i

end Verif.Monitor.Future
