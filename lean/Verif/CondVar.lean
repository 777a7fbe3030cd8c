import Verif.WaitInv

/-!
# Condition variable

`include/boost/fiber/condition_variable.hpp`, `src/condition_variable.cpp`.

`condition_variable` forwards every call to `condition_variable_any` (`condition_variable.hpp:144-234`), so
one machine covers both. Simplifications:

* The user's lock is a single owner cell: `lock` is enabled when it is free, `unlock` frees it (this is what
  C01 and C02 establish for `mutex`).
* The data the predicates read is one number `data`; the predicate of fiber `f` is an arbitrary function
  `P f` of it. Any fiber may write the data at any time, holding the lock or not.
* `wait_for(d)` is `wait_until(now() + d)` (`condition_variable.hpp:131-141`), i.e. `wait_until` with an
  arbitrary deadline.
* A deadline is already a `steady_clock` time point (`detail::convert` is not modelled).

The cv's own spinlock `wait_queue_splk_` is explicit, because C09 is about its position.
-/

namespace Verif.CondVar

/-- `cv_status` (`condition_variable.hpp:41-44`). -/
inductive Status
  | noTimeout | timeout
  deriving DecidableEq, Repr

/-- The waiting calls. -/
inductive Op
  | wait                      -- wait(lt)                         `condition_variable.hpp:66-84`
  | waitPred                  -- wait(lt, pred)                   `:87-91`
  | until (d : Nat)           -- wait_until(lt, d)                `:94-117`
  | untilPred (d : Nat)       -- wait_until(lt, d, pred)          `:120-128`
  deriving DecidableEq, Repr

def Op.dl : Op → Option Nat
  | .wait | .waitPred => none
  | .until d | .untilPred d => some d

def Op.hasPred : Op → Bool
  | .waitPred | .untilPred _ => true
  | .wait | .until _ => false

/-- Where a fiber is. -/
inductive Pc
  | idle                               -- in user code (with or without the lock)
  | locking                            -- in the user's own lock.lock()
  | eval (op : Op)                     -- about to evaluate pred() at the top of the loop
  | lastEval (op : Op)                 -- about to evaluate pred() after a timeout (`:124`)
  | entry (op : Op)                    -- about to take the cv's spinlock (`:70`, `:100`)
  | unlocking (op : Op)                -- spinlock held, about to call lt.unlock() (`:71`, `:102`)
  | enqueuing (op : Op)                -- lock released, about to enqueue and suspend (`:72`, `:103`)
  | waiting (op : Op) (ep : Nat)       -- suspended
  | unlink (op : Op) (ep : Nat)        -- resumed late, about to relock the spinlock and unlink
  | relock (op : Op) (st : Status)     -- about to call lt.lock() (`:76`, `:108`)
  | notifyOne                          -- about to take the spinlock in notify_one (`src/condition_variable.cpp:19-22`)
  | notifyAll                          -- about to take the spinlock in notify_all (`src/condition_variable.cpp:25-28`)
  deriving DecidableEq, Repr

structure State where
  mtx  : Option Fid       -- owner of the user's lock
  data : Nat              -- what the predicates read
  splk : Option Fid       -- holder of wait_queue_splk_
  q    : List Waker
  c    : Ctxs
  pc   : Fid → Pc
  now  : Nat

inductive Event
  | lock (f : Fid)
  | unlock (f : Fid)
  | write (f : Fid) (v : Nat)
  | call (f : Fid) (op : Op)
  | notifyOne (f : Fid)
  | notifyAll (f : Fid)
  | run (f : Fid)
  | timer (f : Fid)
  | tick (n : Nat)
  | elsewhere (f : Fid) (n : Nat)

/-- What a call finally returns. -/
inductive Res
  | void | status (st : Status) | bool (b : Bool)
  deriving DecidableEq, Repr

inductive Obs
  | locked (f : Fid)                                   -- the user's lock() returned
  | unlocked (f : Fid)                                 -- the user's unlock() returned
  | wrote (f : Fid) (v : Nat) (held : Bool)            -- data written, with or without holding the lock
  | called (f : Fid) (op : Op)
  | evaled (f : Fid) (b : Bool)                        -- pred() evaluated to b
  | released (f : Fid)                                 -- wait released the caller's lock
  | expired (f : Fid) (t : Nat)                        -- the timer ended f's suspension
  | notifiedOne (g : Fid) (w : Option Fid) (t : Nat)   -- notify_one() ended the suspension of w
  | notifiedAll (g : Fid) (ws : List Fid) (t : Nat)    -- notify_all() ended the suspension of ws
  | waitRet (f : Fid) (st : Status) (t : Nat)          -- the (inner) wait/wait_until returned
  | done (f : Fid) (r : Res)                           -- the call returned to the user
  deriving DecidableEq, Repr

def init : State :=
  { mtx := none, data := 0, splk := none, q := [], c := Ctxs.init, pc := fun _ => .idle, now := 0 }

/-- Program counter at the start of a call: predicate overloads evaluate first (`condition_variable.hpp:88`, `:122`). -/
def start (op : Op) : Pc := if op.hasPred then .eval op else .entry op

/-- After the inner wait returned: plain overloads return, predicate overloads go round the loop; a timeout in
the timed one leads to the final evaluation (`condition_variable.hpp:89`, `:123-125`). -/
def afterWait (f : Fid) (op : Op) (st : Status) : Pc × List Obs :=
  match op with
  | .wait => (.idle, [.done f .void])
  | .until _ => (.idle, [.done f (.status st)])
  | .waitPred => (.eval op, [])
  | .untilPred _ => if st = .timeout then (.lastEval op, []) else (.eval op, [])

/-- What a predicate overload returns when it ends with value `b`. -/
def predRes (op : Op) (b : Bool) : Res :=
  match op with
  | .untilPred _ => .bool b
  | _ => .void

def run (P : Fid → Nat → Bool) (s : State) (f : Fid) : Option (State × List Obs) :=
  match s.pc f with
  | .idle => none
  | .locking =>
    if s.mtx = none then some ({ s with mtx := some f, pc := upd s.pc f .idle }, [.locked f]) else none
  | .eval op =>
    if P f s.data then
      some ({ s with pc := upd s.pc f .idle }, [.evaled f true, .done f (predRes op true)])
    else some ({ s with pc := upd s.pc f (.entry op) }, [.evaled f false])
  | .lastEval op =>
    some ({ s with pc := upd s.pc f .idle }, [.evaled f (P f s.data), .done f (predRes op (P f s.data))])
  | .entry op =>
    if s.splk = none then some ({ s with splk := some f, pc := upd s.pc f (.unlocking op) }, []) else none
  | .unlocking op =>
    some ({ s with mtx := none, pc := upd s.pc f (.enqueuing op) }, [.released f])
  | .enqueuing op =>   -- enqueue; the spinlock is released after the switch (`src/context.cpp:195-216`)
    let (c, q) := enqueue s.c s.q f
    some ({ s with c := c, q := q, splk := none, pc := upd s.pc f (.waiting op (s.c.epoch f + 1)) }, [])
  | .waiting op ep =>
    if s.c.ready f then
      match op.dl with
      | none => some ({ s with c := consumeReady s.c f, pc := upd s.pc f (.relock op .noTimeout) }, [])
      | some d =>   -- `return now() < sleep_tp` (`src/scheduler.cpp:298-301`)
        if s.now < d then
          some ({ s with c := consumeReady s.c f, pc := upd s.pc f (.relock op .noTimeout) }, [])
        else some ({ s with c := consumeReady s.c f, pc := upd s.pc f (.unlink op ep) }, [])
    else none
  | .unlink op ep =>
    if s.splk = none then
      some ({ s with q := s.q.filter (· ≠ ⟨f, ep⟩), pc := upd s.pc f (.relock op .timeout) }, [])
    else none
  | .relock op st =>
    if s.mtx = none then
      some ({ s with mtx := some f, pc := upd s.pc f (afterWait f op st).1 },
        .waitRet f st s.now :: (afterWait f op st).2)
    else none
  | .notifyOne =>
    if s.splk = none then
      let (c, q, w) := notifyOne s.c s.q
      some ({ s with c := c, q := q, pc := upd s.pc f .idle }, [.notifiedOne f w s.now])
    else none
  | .notifyAll =>
    if s.splk = none then
      let (c, ws) := notifyAll s.c s.q
      some ({ s with c := c, q := [], pc := upd s.pc f .idle }, [.notifiedAll f ws s.now])
    else none

/-- One event. Preconditions of the API: `lock` by a non-owner, `unlock` and the waits by the owner. -/
def step (P : Fid → Nat → Bool) (s : State) : Event → Option (State × List Obs)
  | .lock f =>
    if s.pc f = .idle ∧ s.mtx ≠ some f then some ({ s with pc := upd s.pc f .locking }, []) else none
  | .unlock f =>
    if s.pc f = .idle ∧ s.mtx = some f then some ({ s with mtx := none }, [.unlocked f]) else none
  | .write f v =>
    if s.pc f = .idle then some ({ s with data := v }, [.wrote f v (s.mtx = some f)]) else none
  | .call f op =>
    if s.pc f = .idle ∧ s.mtx = some f then
      some ({ s with pc := upd s.pc f (start op) }, [.called f op])
    else none
  | .notifyOne f => if s.pc f = .idle then some ({ s with pc := upd s.pc f .notifyOne }, []) else none
  | .notifyAll f => if s.pc f = .idle then some ({ s with pc := upd s.pc f .notifyAll }, []) else none
  | .run f => run P s f
  | .timer f =>        -- `scheduler::sleep2ready_` (`src/scheduler.cpp:66-94`)
    match s.pc f with
    | .waiting op ep =>
      match op.dl with
      | some d =>
        if d ≤ s.now then
          let (c, ok) := wake s.c ⟨f, ep⟩
          some ({ s with c := c }, if ok then [.expired f s.now] else [])
        else none
      | none => none
    | _ => none
  | .tick n => some ({ s with now := s.now + n }, [])
  | .elsewhere f n =>
    if s.pc f = .idle then
      some ({ s with c := { s.c with epoch := upd s.c.epoch f (s.c.epoch f + n) } }, [])
    else none

/-! ## Invariant -/

def regOf : Pc → Option (WReg Unit)
  | .waiting op ep => some ⟨(), ep, op.dl, false⟩
  | .unlink op ep => some ⟨(), ep, op.dl, true⟩
  | _ => none

/-- Positions at which the fiber holds the user's lock. -/
def hasLock : Pc → Bool
  | .eval _ | .lastEval _ | .entry _ | .unlocking _ => true
  | _ => false

/-- Positions at which it does not. -/
def noLock : Pc → Bool
  | .locking | .enqueuing _ | .waiting _ _ | .unlink _ _ | .relock _ _ => true
  | _ => false

/-- Positions at which the fiber holds the cv's spinlock. -/
def hasSplk : Pc → Bool
  | .unlocking _ | .enqueuing _ => true
  | _ => false

structure Inv (s : State) : Prop where
  w  : WInv s.c (fun _ : Unit => s.q) s.now (fun f => regOf (s.pc f))
  sp : ∀ f, s.splk = some f ↔ hasSplk (s.pc f) = true
  hl : ∀ f, hasLock (s.pc f) = true → s.mtx = some f
  nl : ∀ f, noLock (s.pc f) = true → s.mtx ≠ some f

theorem inv_init : Inv init := by
  constructor
  · exact WInv.init.congr (fun _ => rfl) (fun _ => rfl)
  all_goals simp [init, hasSplk, hasLock, noLock]

/-- Steps that leave queue and contexts alone. -/
theorem Inv.quiet {s s' : State} (h : Inv s) (hc : s'.c = s.c) (hq : s'.q = s.q) (hn : s'.now = s.now)
    (hr : ∀ f, regOf (s'.pc f) = regOf (s.pc f))
    (sp : ∀ f, s'.splk = some f ↔ hasSplk (s'.pc f) = true)
    (hl : ∀ f, hasLock (s'.pc f) = true → s'.mtx = some f)
    (nl : ∀ f, noLock (s'.pc f) = true → s'.mtx ≠ some f) : Inv s' := by
  refine ⟨?_, sp, hl, nl⟩
  rw [hc, hn]
  exact h.w.congr (fun _ => hq) hr

theorem inv_run {P : Fid → Nat → Bool} {s s' : State} {o : List Obs} {f : Fid} (h : Inv s)
    (hs : run P s f = some (s', o)) : Inv s' := by
  have sp := h.sp
  have hl := h.hl
  have nl := h.nl
  simp only [run] at hs
  split at hs
  · cases hs
  case h_7 =>
    rename_i op hp
    simp only [Option.some.injEq, Prod.mk.injEq] at hs; obtain ⟨rfl, rfl⟩ := hs
    refine ⟨h.w.enqueue (f := f) (i := ()) (dl := op.dl) (by simp [hp, regOf]) (fun _ => rfl) ?_, ?_, ?_, ?_⟩
    · intro g; simp only [upd_apply]; split <;> simp_all [regOf]
    all_goals grind [upd_apply, hasSplk, hasLock, noLock]
  case h_8 =>
    rename_i op ep hp
    split at hs <;> try simp only [reduceCtorEq] at hs
    rename_i hr
    split at hs
    · rename_i hd
      simp only [Option.some.injEq, Prod.mk.injEq] at hs; obtain ⟨rfl, rfl⟩ := hs
      refine ⟨h.w.resume (f := f) (r := ⟨(), ep, op.dl, false⟩) (by simp [hp, regOf]) hr (by simp [hd]) ?_, ?_, ?_, ?_⟩
      · intro g; simp only [upd_apply]; split <;> simp_all [regOf]
      all_goals grind [upd_apply, hasSplk, hasLock, noLock]
    · rename_i d hd
      split at hs <;> simp only [Option.some.injEq, Prod.mk.injEq] at hs <;> obtain ⟨rfl, rfl⟩ := hs
      · rename_i hlt
        refine ⟨h.w.resume (f := f) (r := ⟨(), ep, op.dl, false⟩) (by simp [hp, regOf]) hr (by simp [hd, hlt]) ?_, ?_, ?_, ?_⟩
        · intro g; simp only [upd_apply]; split <;> simp_all [regOf]
        all_goals grind [upd_apply, hasSplk, hasLock, noLock]
      · rename_i hlt
        refine ⟨h.w.resumeLate (f := f) (r := ⟨(), ep, op.dl, false⟩) (by simp [hp, regOf]) hr hd (by omega) ?_, ?_, ?_, ?_⟩
        · intro g; simp only [upd_apply]; split <;> simp_all [regOf]
        all_goals grind [upd_apply, hasSplk, hasLock, noLock]
  case h_9 =>
    rename_i op ep hp
    split at hs <;> simp only [Option.some.injEq, Prod.mk.injEq, reduceCtorEq] at hs
    obtain ⟨rfl, rfl⟩ := hs
    refine ⟨h.w.unlink (f := f) (r := ⟨(), ep, op.dl, true⟩) (by simp [hp, regOf]) rfl (fun _ => rfl) ?_, ?_, ?_, ?_⟩
    · intro g; simp only [upd_apply]; split <;> simp_all [regOf]
    all_goals grind [upd_apply, hasSplk, hasLock, noLock]
  case h_11 =>
    rename_i hp
    split at hs <;> simp only [Option.some.injEq, Prod.mk.injEq, reduceCtorEq] at hs
    obtain ⟨rfl, rfl⟩ := hs
    refine ⟨(h.w.notifyOne () (fun _ => rfl)).congr (fun _ => rfl) ?_, ?_, ?_, ?_⟩
    · intro g; simp only [upd_apply]; split <;> simp_all [regOf]
    all_goals grind [upd_apply, hasSplk, hasLock, noLock]
  case h_12 =>
    rename_i hp
    split at hs <;> simp only [Option.some.injEq, Prod.mk.injEq, reduceCtorEq] at hs
    obtain ⟨rfl, rfl⟩ := hs
    refine ⟨(h.w.notifyAll () (q' := fun _ => []) (fun _ => rfl)).congr (fun _ => rfl) ?_, ?_, ?_, ?_⟩
    · intro g; simp only [upd_apply]; split <;> simp_all [regOf]
    all_goals grind [upd_apply, hasSplk, hasLock, noLock]
  case h_10 =>
    rename_i op st hp
    split at hs <;> simp only [Option.some.injEq, Prod.mk.injEq, reduceCtorEq] at hs
    obtain ⟨rfl, rfl⟩ := hs
    have ha : ∀ p, p = (afterWait f op st).1 → regOf p = none ∧ hasSplk p = false ∧ noLock p = false := by
      rintro p rfl; unfold afterWait; split <;> (try split) <;> simp [regOf, hasSplk, noLock]
    generalize (afterWait f op st).1 = p at ha
    have ha := ha p rfl
    apply h.quiet <;> try rfl
    all_goals grind [upd_apply, hasSplk, hasLock, noLock, regOf]
  all_goals (repeat' split at hs) <;> simp only [Option.some.injEq, Prod.mk.injEq, reduceCtorEq] at hs
  all_goals obtain ⟨rfl, rfl⟩ := hs
  all_goals apply h.quiet <;> try rfl
  all_goals grind [upd_apply, hasSplk, hasLock, noLock, regOf]

theorem inv_step {P : Fid → Nat → Bool} {s s' : State} {o : List Obs} {e : Event} (h : Inv s)
    (hs : step P s e = some (s', o)) : Inv s' := by
  have sp := h.sp
  have hl := h.hl
  have nl := h.nl
  cases e with
  | run f => exact inv_run h hs
  | timer f =>
    simp only [step] at hs
    split at hs <;> try simp only [reduceCtorEq] at hs
    rename_i op ep hp
    split at hs <;> try simp only [reduceCtorEq] at hs
    rename_i d hd
    split at hs <;> simp only [Option.some.injEq, Prod.mk.injEq, reduceCtorEq] at hs
    rename_i hle
    obtain ⟨rfl, rfl⟩ := hs
    exact ⟨h.w.timer (f := f) (r := ⟨(), ep, op.dl, false⟩) (by simp [hp, regOf]) rfl hd hle, sp, hl, nl⟩
  | tick n =>
    simp only [step, Option.some.injEq, Prod.mk.injEq] at hs
    obtain ⟨rfl, rfl⟩ := hs
    exact ⟨h.w.tick n, sp, hl, nl⟩
  | elsewhere f n =>
    simp only [step] at hs
    split at hs <;> simp only [Option.some.injEq, Prod.mk.injEq, reduceCtorEq] at hs
    rename_i hg
    obtain ⟨rfl, rfl⟩ := hs
    exact ⟨h.w.elsewhere (by simp [hg, regOf]) n, sp, hl, nl⟩
  | call f op =>
    simp only [step] at hs
    split at hs <;> simp only [Option.some.injEq, Prod.mk.injEq, reduceCtorEq] at hs
    obtain ⟨rfl, rfl⟩ := hs
    apply h.quiet <;> try rfl
    all_goals unfold start; cases op <;> grind [upd_apply, hasSplk, hasLock, noLock, regOf, Op.hasPred]
  | _ =>
    simp only [step] at hs
    split at hs <;> simp only [Option.some.injEq, Prod.mk.injEq, reduceCtorEq] at hs
    obtain ⟨rfl, rfl⟩ := hs
    apply h.quiet <;> try rfl
    all_goals grind [upd_apply, hasSplk, hasLock, noLock, regOf]

theorem reach_inv {P : Fid → Nat → Bool} {s : State} {tr : List Obs} (h : Reach (step P) init s tr) : Inv s :=
  Reach.inv (fun s _ => Inv s) inv_init (fun _ _ _ _ _ _ hi hs => inv_step hi hs) h

end Verif.CondVar
