import Verif.MonitorSec

/-!
# The barrier on weak memory

`barrier` (`include/boost/fiber/barrier.hpp`, `src/barrier.cpp`): the members are protected by the mutex `mtx_` of the library.

Simplifications: `current_` is kept as the number of fibers that have arrived, `initial_ - current_`, since memory begins with 0 everywhere; the counter `cycle_` does
not overflow. The constant `initial_` is not counted as memory. `condition_variable` (its own spinlock and wait queue) is not modelled here: a fiber
that waits may go on at any time. (Who is notified when, and that nobody waits forever, is in other parts of the model.)
-/

namespace Verif.Monitor.Barrier

open Verif.Rtm (Tid Lock Addr Req Done Hist Prog mine)
open Verif.Monitor

inductive Op
  | wait
  /-- in `cond_.wait( lk, [&]{ return cycle != cycle_; })`, `src/barrier.cpp:44` -/
  | waiting (cycle : Nat)
  deriving DecidableEq, Repr

/-- What `wait()` returns. -/
abbrev Res := Bool

/-- Where the user's data are. -/
def dataAt (a : Nat) : Addr := 2 * a

/-- `cycle_` -/
def cycAt (o : Obj) : Addr := 4 * o + 1

/-- `initial_ - current_` -/
def arrAt (o : Obj) : Addr := 4 * o + 3

def home (a : Addr) : Option Obj := if a % 2 = 0 then none else some (a / 4)

theorem home_data (a : Nat) : home (dataAt a) = none := by simp [home, dataAt]

theorem home_cyc (o : Obj) : home (cycAt o) = some o := by
  have h : ∀ m : Nat, (4 * m + 1) % 2 ≠ 0 ∧ (4 * m + 1) / 4 = m := fun m => by omega
  simp [home, cycAt, h o]

theorem home_arr (o : Obj) : home (arrAt o) = some o := by
  have h : ∀ m : Nat, (4 * m + 3) % 2 ≠ 0 ∧ (4 * m + 3) / 4 = m := fun m => by omega
  simp [home, arrAt, h o]

theorem cyc_ne_arr (o p : Obj) : cycAt o ≠ arrAt p := by
  have h : ∀ m k : Nat, 4 * m + 1 ≠ 4 * k + 3 := fun m k => by omega
  exact h o p

variable (init : Obj → Nat)

/-- `barrier::wait`, `src/barrier.cpp:32-46`. Barrier `o` was made for `init o` fibers. -/
def sec (o : Obj) : Op → Sec Op Res
  | .wait =>
    .read (cycAt o) fun cycle => .read (arrAt o) fun k =>
      if k + 1 = init o then .write (cycAt o) (cycle + 1) (.write (arrAt o) 0 (.ret true))
      else .write (arrAt o) (k + 1) (.again (.waiting cycle))
  | .waiting cycle => .read (cycAt o) fun c => if c ≠ cycle then .ret false else .again (.waiting cycle)

theorem within (o : Obj) (_ : Tid) (op : Op) : (sec init o op).Within home o := by
  cases op with
  | wait =>
    refine ⟨home_cyc o, fun c => ⟨home_arr o, fun k => ?_⟩⟩
    dsimp only
    split
    · exact ⟨home_cyc o, home_arr o, trivial⟩
    · exact ⟨home_arr o, trivial⟩
  | waiting c =>
    refine ⟨home_cyc o, fun c' => ?_⟩
    dsimp only
    split <;> trivial

/-- The barriers. -/
def lib : Lib Op Res := Lib.of (fun o _ op => sec init o op) home (fun _ => false) (within init)

/-! ## Specification -/

/-- How many times a thread has returned from a barrier: the phase it is in. -/
def phase : List (UDone Op Res) → Nat
  | [] => 0
  | .did _ _ _ :: p => phase p + 1
  | _ :: p => phase p

/-- What a thread got from the barrier, in this order. -/
def results : List (UDone Op Res) → List Bool
  | [] => []
  | .did _ _ r :: p => results p ++ [r]
  | _ :: p => results p

/-- What may be done with data in a phase: `some t`, only thread `t` reads and writes it; `none`, all threads read it. -/
abbrev Plan := Nat → Addr → Option Tid

/-- `init 0` threads go through phases, with a barrier between them, and keep to a plan. Every thread can tell from its own past which phase it is in. -/
def Phased (V : UProg Op Res) (plan : Plan) : Prop :=
  ∀ h t, ULegal (lib init) V h →
    (∀ a, V t (upast h t) = some (.read a) → home a = none ∧ t < init 0 ∧ (plan (phase (upast h t)) a = some t ∨ plan (phase (upast h t)) a = none)) ∧
    (∀ a v, V t (upast h t) = some (.write a v) → home a = none ∧ t < init 0 ∧ plan (phase (upast h t)) a = some t) ∧
    ∀ o op, V t (upast h t) = some (.call o op) → o = 0 ∧ op = .wait ∧ t < init 0

end Verif.Monitor.Barrier
