import Verif.MonitorChanInv

/-!
# Networks of channels

Programs whose threads communicate through buffered channels only, with one producer and one consumer per channel and with blocking operations: one thread pushes to a channel and
closes it, one thread pops from it.
-/

namespace Verif.Monitor.Chan

open Verif.Rtm (Tid Lock Addr Req Done Hist Prog mine owner value Legal Allowed holding)
open Verif.WeakDrf Verif.Monitor

/-- Thread `prod o` alone pushes to channel `o` and closes it, thread `cons o` alone pops from it. There are no other operations: none with a timeout, no `try_push`, no `try_pop`,
no `is_closed`. -/
def Network (C : Chans) (V : UProg Op Res) (prod cons : Obj → Tid) : Prop :=
  ∀ h t o op, ULegal (lib C) V h → V t (upast h t) = some (.call o op) → (t = prod o ∧ (op = .close ∨ ∃ v, op = .push v)) ∨ (t = cons o ∧ op = .pop)

/-- What a thread has pushed to channel `o`. -/
def pushes (o : Obj) : List (UDone Op Res) → List Nat
  | [] => []
  | .did o' (.push v) .success :: p => if o' = o then pushes o p ++ [v] else pushes o p
  | _ :: p => pushes o p

/-- What a thread has popped from channel `o`. -/
def pops (o : Obj) : List (UDone Op Res) → List Nat
  | [] => []
  | .did o' .pop (.value v) :: p => if o' = o then pops o p ++ [v] else pops o p
  | _ :: p => pops o p

/-- Whether a thread has closed channel `o`. -/
def closes (o : Obj) : List (UDone Op Res) → Bool
  | [] => false
  | .did o' .close _ :: p => o' == o || closes o p
  | _ :: p => closes o p

/-- What an operation of a network does when `q` is what has been pushed so far, `k` how many of them have been popped, and `cl` whether the channel has been closed. -/
def answer (cap : Nat) (q : List Nat) (k : Nat) (cl : Bool) : Op → Act Op Res
  | .push v => if cl then .ret .closed else if q.length - k + 1 < cap then .ret .success else .again (.push v)
  | .pop => match q[k]? with
    | some v => .ret (.value v)
    | none => if cl then .ret .closed else .again .pop
  | _ => .ret .none

end Verif.Monitor.Chan
