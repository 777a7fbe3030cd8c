import Verif.FutureCore

/-!
# Specification of results

The specification knows, for every result, whether it is ready and with what, whether its future has been handed
out, and for every fiber the call it is in and whether that call has produced the result. It knows nothing of
reference counts, handles' contents, locks, wait queues or notifications.
-/

namespace Verif.Fut

variable {V E : Type}

structure Call (V E : Type) where
  op  : Op V E
  sid : Option Sid        -- the result the call is about
  did : Bool              -- the call has made it ready

structure Spec (V E : Type) where
  res    : Sid → Option (Outcome V E)
  got    : Sid → Bool                       -- a future for it has been handed out
  inCall : Fid → Option (Call V E)

def Spec.init : Spec V E := { res := fun _ => none, got := fun _ => false, inCall := fun _ => none }

/-- What a call makes a result ready with. -/
def produces : Op V E → Option (Outcome V E)
  | .setValue _ v => some (.value v)
  | .setExc _ e => some (.exn (.user e))
  | .invoke _ (.inl v) => some (.value v)
  | .invoke _ (.inr e) => some (.exn (.user e))
  | .destroy _ | .moveAssign _ _ => some (.exn .broken)
  | _ => none

/-- The operations that promise to make the result ready. -/
def setter : Op V E → Bool
  | .setValue _ _ | .setExc _ _ | .invoke _ _ => true
  | _ => false

/-- The exception for using a handle that refers to nothing. -/
def noState : Op V E → Err → Bool
  | .setValue _ _, .promiseUninitialized | .setExc _ _, .promiseUninitialized | .getFuture _ _, .promiseUninitialized => true
  | .invoke _ _, .taskUninitialized | .reset _, .taskUninitialized | .getFuture _ _, .taskUninitialized => true
  | .get _, .futureUninitialized | .wait _, .futureUninitialized | .waitUntil _ _, .futureUninitialized
  | .getExc _, .futureUninitialized => true
  | _, _ => false

/-- What the receiving calls may return when the result is `out`. -/
def delivers : Op V E → Outcome V E → Res V E → Prop
  | .get _, .value v, r => r = .value v
  | .get _, .exn x, r => r = .threw x
  | .getExc _, .value _, r => r = .exc none
  | .getExc _, .exn x, r => r = .exc (some x)
  | .wait _, _, r => r = .ok
  | .waitUntil _ _, _, r => r = .ready
  | _, _, _ => False

/-- May the call `c` return `r` at time `t`? -/
def Spec.allowed (sp : Spec V E) (c : Call V E) (r : Res V E) (t : Nat) : Prop :=
  match c.sid with
  | none =>
    match c.op with
    | .valid _ => r = .bool false
    | .move _ _ | .share _ _ | .moveAssign _ _ | .swap _ _ | .copy _ _ | .copyAssign _ _ | .destroy _ | .mkEmpty _ _ => r = .ok
    | op => ∃ e, r = .err e ∧ noState op e = true
  | some i =>
    match c.op with
    | .setValue _ _ | .setExc _ _ | .invoke _ _ =>
      r = .ok ∧ c.did = true ∨ r = .err .alreadySatisfied ∧ c.did = false ∧ sp.res i ≠ none
    | .get _ | .wait _ | .getExc _ => ∃ out, sp.res i = some out ∧ delivers c.op out r
    | .waitUntil _ d =>
      (∃ out, sp.res i = some out ∧ delivers c.op out r) ∨ (r = .timeout ∧ sp.res i = none ∧ d ≤ t)
    | .getFuture _ _ => r = .ok ∧ sp.got i = false ∨ r = .err .alreadyRetrieved ∧ sp.got i = true
    | .valid _ => r = .bool true
    | .mkPromise _ | .mkTask _ => r = .ok ∧ sp.res i = none ∧ sp.got i = false
    | .mkEmpty _ _ => False
    | _ => r = .ok

/-- The `got` flags after a call. -/
def gotAfter (got : Sid → Bool) (op : Op V E) (i : Option Sid) (r : Res V E) : Sid → Bool :=
  match op, i, r with
  | .getFuture _ _, some i, .ok => upd got i true
  | _, _, _ => got

/-- One observation. -/
inductive Spec.Next : Spec V E → Obs V E → Spec V E → Prop
  | called (sp f op i) (h : sp.inCall f = none) :
      Next sp (.called f op i) { sp with inCall := upd sp.inCall f (some ⟨op, i, false⟩) }
  | stored (sp f i out op) (hc : sp.inCall f = some ⟨op, some i, false⟩) (hp : produces op = some out)
      (hr : sp.res i = none) :
      Next sp (.stored f i out)
        { sp with res := upd sp.res i (some out), inCall := upd sp.inCall f (some ⟨op, some i, true⟩) }
  | notified (sp f i ws) (hr : sp.res i ≠ none) : Next sp (.notified f i ws) sp
  | ret (sp f c r t) (hc : sp.inCall f = some c) (ha : sp.allowed c r t) :
      Next sp (.ret f c.op c.sid r t)
        { sp with
          inCall := upd sp.inCall f none
          got := gotAfter sp.got c.op c.sid r }
  | freed (sp i b) (hb : b = (match sp.res i with | some out => out.isValue | none => false)) : Next sp (.freed i b) sp

inductive Spec.Runs : Spec V E → List (Obs V E) → Spec V E → Prop
  | nil (sp) : Runs sp [] sp
  | snoc {sp sp1 sp2 tr o} (h : Runs sp tr sp1) (hn : Spec.Next sp1 o sp2) : Runs sp (tr ++ [o]) sp2

theorem Spec.Runs.append {sp sp1 sp2 : Spec V E} {t1 t2 : List (Obs V E)} (h1 : Spec.Runs sp t1 sp1)
    (h2 : Spec.Runs sp1 t2 sp2) : Spec.Runs sp (t1 ++ t2) sp2 := by
  induction h2 with
  | nil => simpa using h1
  | snoc _ hn ih => rw [← List.append_assoc]; exact .snoc ih hn

/-- Handles: at most one promise or task per result; its flag says whether the future was handed out. -/
structure Prov (s : State V E) (got : Sid → Bool) : Prop where
  uniq : ∀ h h' x x' i, s.hd h = some x → s.hd h' = some x' → x.kind.provider = true → x'.kind.provider = true →
    x.st = some i → x'.st = some i → h = h'
  flag : ∀ h x i, s.hd h = some x → x.kind.provider = true → x.st = some i → x.obtained = got i
  recv : ∀ h x, s.hd h = some x → x.kind.provider = false → x.obtained = false
  null : ∀ h x, s.hd h = some x → x.st = none → x.obtained = false
  frs  : ∀ i, s.next ≤ i → got i = false

/-- What the specification says of a fiber at `p`. -/
def CallOK (s : State V E) (p : Pc V E) (c : Option (Call V E)) : Prop :=
  match p with
  | .idle => c = none
  | .set op _ i out _ => c = some ⟨op, some i, false⟩ ∧ setter op = true ∧
      (produces op = some out ∨ s.res i ≠ none)
  | .owner op i => c = some ⟨op, some i, false⟩ ∧ ((∃ h, op = .destroy h) ∨ ∃ h h', op = .moveAssign h h')
  | .notify op _ i => c = some ⟨op, some i, true⟩ ∧ s.res i ≠ none ∧
      (setter op = true ∨ (∃ h, op = .destroy h) ∨ ∃ h h', op = .moveAssign h h')
  | .enter op _ i | .enq op _ i | .waiting op _ i _ => c = some ⟨op, some i, false⟩ ∧
      ((∃ h, op = .get h) ∨ (∃ h, op = .wait h) ∨ (∃ h d, op = .waitUntil h d) ∨ ∃ h, op = .getExc h)
  | .unlink op _ i _ | .last op _ i => c = some ⟨op, some i, false⟩ ∧ ∃ h d, op = .waitUntil h d ∧ d ≤ s.now

structure Sim (s : State V E) (sp : Spec V E) : Prop where
  res  : sp.res = s.res
  call : ∀ f, CallOK s (s.pc f) (sp.inCall f)
  prov : Prov s sp.got

end Verif.Fut
