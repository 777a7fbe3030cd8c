import Verif.WaitInv

/-!
# Barrier

`include/boost/fiber/barrier.hpp`, `src/barrier.cpp`.

Simplifications: the barrier's mutex is a single owner cell (C01, C02); `condition_variable::wait` releases
the mutex and enqueues in one step (C09: no notification can fall between the two); `cycle_` is an unbounded
number (`size_t` in the code: a fiber would have to sleep through 2^64 completed batches to see a
difference).
-/

namespace Verif.Barrier

/-- Where a fiber is in `barrier::wait` (`src/barrier.cpp:30-44`). -/
inductive Pc
  | idle
  | locking                           -- `std::unique_lock lk{ mtx_ }` (`:32`)
  | body                              -- mutex held, about to count itself (`:33-36`)
  | unlocking                         -- last of its batch: about to `lk.unlock()` (`:37`)
  | notifying                         -- about to `cond_.notify_all()` (`:38`)
  | check (cyc : Nat)                 -- mutex held, about to evaluate `cycle != cycle_` (`:42`)
  | waiting (cyc : Nat) (ep : Nat)    -- suspended in cond_.wait
  | relocking (cyc : Nat)             -- resumed, about to lock the mutex again
  deriving DecidableEq, Repr

structure State where
  mtx     : Option Fid
  current : Nat              -- current_
  cycle   : Nat              -- cycle_
  q       : List Waker
  c       : Ctxs
  pc      : Fid → Pc

inductive Event
  | call (f : Fid)
  | run (f : Fid)
  | elsewhere (f : Fid) (n : Nat)

inductive Obs
  | called (f : Fid)
  | arrived (f : Fid)              -- the call was counted
  | ret (f : Fid) (b : Bool)       -- wait() returned b
  deriving DecidableEq, Repr

inductive Err
  | invalidArgument
  deriving DecidableEq, Repr

/-- `barrier::barrier` (`src/barrier.cpp:21-28`). -/
def construct (n : Nat) : Except Err State :=
  if n = 0 then .error .invalidArgument
  else .ok { mtx := none, current := n, cycle := 0, q := [], c := Ctxs.init, pc := fun _ => .idle }

/-- The state built by `barrier(n)`. -/
def init (n : Nat) : State :=
  { mtx := none, current := n, cycle := 0, q := [], c := Ctxs.init, pc := fun _ => .idle }

def run (n : Nat) (s : State) (f : Fid) : Option (State × List Obs) :=
  match s.pc f with
  | .idle => none
  | .locking => if s.mtx = none then some ({ s with mtx := some f, pc := upd s.pc f .body }, []) else none
  | .body =>
    if s.current - 1 = 0 then
      some ({ s with cycle := s.cycle + 1, current := n, pc := upd s.pc f .unlocking }, [.arrived f])
    else
      some ({ s with current := s.current - 1, pc := upd s.pc f (.check s.cycle) }, [.arrived f])
  | .unlocking => some ({ s with mtx := none, pc := upd s.pc f .notifying }, [])
  | .notifying =>
    some ({ s with c := (notifyAll s.c s.q).1, q := [], pc := upd s.pc f .idle }, [.ret f true])
  | .check cyc =>
    if cyc ≠ s.cycle then some ({ s with mtx := none, pc := upd s.pc f .idle }, [.ret f false])
    else
      some ({ s with mtx := none, c := (enqueue s.c s.q f).1, q := (enqueue s.c s.q f).2,
                     pc := upd s.pc f (.waiting cyc (s.c.epoch f + 1)) }, [])
  | .waiting cyc _ =>
    if s.c.ready f then some ({ s with c := consumeReady s.c f, pc := upd s.pc f (.relocking cyc) }, []) else none
  | .relocking cyc =>
    if s.mtx = none then some ({ s with mtx := some f, pc := upd s.pc f (.check cyc) }, []) else none

def step (n : Nat) (s : State) : Event → Option (State × List Obs)
  | .call f => if s.pc f = .idle then some ({ s with pc := upd s.pc f .locking }, [.called f]) else none
  | .run f => run n s f
  | .elsewhere f k =>
    if s.pc f = .idle then
      some ({ s with c := { s.c with epoch := upd s.c.epoch f (s.c.epoch f + k) } }, [])
    else none

/-! ## Invariant -/

def regOf : Pc → Option (WReg Unit)
  | .waiting _ ep => some ⟨(), ep, none, false⟩
  | _ => none

def hasLock : Pc → Bool
  | .body | .unlocking | .check _ => true
  | _ => false

/-- The batch the fiber waits for. -/
def cycOf : Pc → Option Nat
  | .check cyc | .waiting cyc _ | .relocking cyc => some cyc
  | _ => none

def isAnnouncing : Pc → Bool
  | .unlocking | .notifying => true
  | _ => false

structure Inv (s : State) : Prop where
  w  : WInv s.c (fun _ : Unit => s.q) 0 (fun f => regOf (s.pc f))
  hl : ∀ f, s.mtx = some f ↔ hasLock (s.pc f) = true
  /-- A sleeper whose batch is complete implies an announcement under way. -/
  ann : ∀ f cyc ep, s.pc f = .waiting cyc ep → s.c.ready f = false → cyc ≠ s.cycle →
    ∃ g, isAnnouncing (s.pc g) = true

theorem inv_init (n : Nat) : Inv (init n) := by
  constructor
  · exact WInv.init.congr (fun _ => rfl) (fun _ => rfl)
  all_goals simp [init, hasLock]

theorem inv_step {n : Nat} {s s' : State} {o : List Obs} {e : Event} (h : Inv s)
    (hs : step n s e = some (s', o)) : Inv s' := by
  obtain ⟨w, hl, ann⟩ := h
  cases e with
  | call f =>
    simp only [step] at hs
    split at hs <;> simp only [Option.some.injEq, Prod.mk.injEq, reduceCtorEq] at hs
    rename_i hp
    obtain ⟨rfl, rfl⟩ := hs
    refine ⟨w.congr (fun _ => rfl) ?_, ?_, ?_⟩
    · grind [upd_apply, regOf]
    · grind [upd_apply, hasLock]
    · intro g cyc ep hg hr hc
      simp only [upd_apply] at hg
      split at hg
      · cases hg
      · obtain ⟨a, ha⟩ := ann g cyc ep hg hr hc
        refine ⟨a, ?_⟩; simp only [upd_apply]; split
        · subst_vars; simp [hp, isAnnouncing] at ha
        · exact ha
  | elsewhere f k =>
    simp only [step] at hs
    split at hs <;> simp only [Option.some.injEq, Prod.mk.injEq, reduceCtorEq] at hs
    rename_i hp
    obtain ⟨rfl, rfl⟩ := hs
    exact ⟨w.elsewhere (by simp [hp, regOf]) k, hl, ann⟩
  | run f =>
    simp only [step, run] at hs
    -- a step of `f` that changes neither contexts nor queue, and after which `f` is not announcing less
    have quiet : ∀ (m : Option Fid) (cur : Nat) (p : Pc), regOf p = none → regOf (s.pc f) = none →
        isAnnouncing p = isAnnouncing (s.pc f) →
        (∀ g, m = some g ↔ hasLock (upd s.pc f p g) = true) →
        Inv { s with mtx := m, current := cur, pc := upd s.pc f p } := by
      intro m cur p hp hpf ha hl'
      refine ⟨w.congr (fun _ => rfl) ?_, hl', ?_⟩
      · intro g; simp only [upd_apply]; split
        · subst_vars; rw [hp, hpf]
        · rfl
      · intro g cyc ep hg hr hc
        simp only [upd_apply] at hg
        split at hg
        · subst hg; simp [regOf] at hp
        · obtain ⟨a, ha'⟩ := ann g cyc ep hg hr hc
          refine ⟨a, ?_⟩; simp only [upd_apply]; split
          · subst_vars; rw [ha]; exact ha'
          · exact ha'
    split at hs
    · cases hs
    · split at hs <;> simp only [Option.some.injEq, Prod.mk.injEq, reduceCtorEq] at hs
      obtain ⟨rfl, rfl⟩ := hs
      apply quiet <;> grind [upd_apply, hasLock, regOf, isAnnouncing]
    · rename_i hp
      split at hs <;> simp only [Option.some.injEq, Prod.mk.injEq] at hs <;> obtain ⟨rfl, rfl⟩ := hs
      · refine ⟨w.congr (fun _ => rfl) ?_, ?_, ?_⟩
        · grind [upd_apply, regOf]
        · grind [upd_apply, hasLock]
        · intro g cyc ep hg hr hc; exact ⟨f, by simp [isAnnouncing]⟩
      · apply quiet <;> grind [upd_apply, hasLock, regOf, isAnnouncing]
    · simp only [Option.some.injEq, Prod.mk.injEq] at hs; obtain ⟨rfl, rfl⟩ := hs
      apply quiet <;> grind [upd_apply, hasLock, regOf, isAnnouncing]
    · rename_i hp
      simp only [Option.some.injEq, Prod.mk.injEq] at hs; obtain ⟨rfl, rfl⟩ := hs
      refine ⟨(w.notifyAll () (q' := fun _ => []) (fun _ => rfl)).congr (fun _ => rfl) ?_, ?_, ?_⟩
      · grind [upd_apply, regOf]
      · grind [upd_apply, hasLock]
      · intro g cyc ep hg hr hc
        exfalso
        simp only [upd_apply] at hg
        split at hg
        · cases hg
        · have h3 := w.ready_notifyAll () g
          have hr' : (notifyAll s.c s.q).1.ready g = false := hr
          rw [h3] at hr'
          simp only [Bool.or_eq_false_iff, decide_eq_false_iff_not] at hr'
          exact hr'.2 ((w.mem_live_iff (i := ())).2 ⟨⟨(), ep, none, false⟩, by simp [hg, regOf], rfl, rfl, hr'.1⟩)
    · rename_i cyc hp
      split at hs <;> simp only [Option.some.injEq, Prod.mk.injEq] at hs <;> obtain ⟨rfl, rfl⟩ := hs
      · apply quiet <;> grind [upd_apply, hasLock, regOf, isAnnouncing]
      · rename_i hc
        refine ⟨w.enqueue (f := f) (i := ()) (dl := none) (by simp [hp, regOf]) (fun _ => rfl) ?_, ?_, ?_⟩
        · intro g; simp only [upd_apply]; split <;> simp_all [regOf]
        · grind [upd_apply, hasLock]
        · intro g cyc' ep' hg hr hc'
          simp only [upd_apply] at hg
          split at hg
          · cases hg; simp at hc; exact absurd hc hc'
          · obtain ⟨a, ha⟩ := ann g cyc' ep' hg hr hc'
            refine ⟨a, ?_⟩; simp only [upd_apply]; split
            · subst_vars; simp [hp, isAnnouncing] at ha
            · exact ha
    · rename_i cyc ep hp
      split at hs <;> simp only [Option.some.injEq, Prod.mk.injEq, reduceCtorEq] at hs
      rename_i hr
      obtain ⟨rfl, rfl⟩ := hs
      refine ⟨w.resume (f := f) (r := ⟨(), ep, none, false⟩) (by simp [hp, regOf]) hr (by simp) ?_, ?_, ?_⟩
      · intro g; simp only [upd_apply]; split <;> simp_all [regOf]
      · grind [upd_apply, hasLock]
      · intro g cyc' ep' hg hr' hc'
        simp only [upd_apply] at hg
        split at hg
        · cases hg
        · rename_i hgf
          have hr'' : s.c.ready g = false := by simpa [consumeReady, upd_apply, hgf] using hr'
          obtain ⟨a, ha⟩ := ann g cyc' ep' hg hr'' hc'
          refine ⟨a, ?_⟩; simp only [upd_apply]; split
          · subst_vars; simp [hp, isAnnouncing] at ha
          · exact ha
    · split at hs <;> simp only [Option.some.injEq, Prod.mk.injEq, reduceCtorEq] at hs
      obtain ⟨rfl, rfl⟩ := hs
      apply quiet <;> grind [upd_apply, hasLock, regOf, isAnnouncing]

theorem reach_inv {n : Nat} {s : State} {tr : List Obs} (h : Reach (step n) (init n) s tr) : Inv s :=
  Reach.inv (fun s _ => Inv s) (inv_init n) (fun _ _ _ _ _ _ hi hs => inv_step hi hs) h

end Verif.Barrier
