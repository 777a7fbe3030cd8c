import Verif.Multi

/-!
# What threads that share fibers may do, in terms of what can be observed

A fiber is handed from the thread that makes it ready to exactly one thread, which then runs it.
-/

namespace Verif.Multi

open Verif.Sch (Cx Tid set set_apply set_same set_other)

/-- Where a fiber is, as far as the observations tell. -/
inductive Status
  | fresh               -- not yet created
  | out                 -- running, or between running and the next queue
  | queued              -- ready: in a queue
  | taken (t : Tid)     -- taken from a queue by thread `t`, not yet running
  | blocked (t : Tid)   -- blocked while attached to thread `t`
  | gone                -- finished
  deriving DecidableEq, Repr

structure Spec where
  status : Cx → Status
  cur : Tid → Option Cx          -- what each thread runs
  closing : Tid → Bool

def Spec.init : Spec := ⟨fun _ => .fresh, fun _ => none, fun _ => false⟩

/-- The main fiber and the dispatcher of thread `t`. -/
def own (t : Tid) (x : Cx) : Prop := x = .main t ∨ x = .disp t

/-- No thread runs `x`. -/
def Spec.free (l : Spec) (x : Cx) : Prop := ∀ u, l.cur u ≠ some x

/-- Which observations are allowed. -/
def ok (l : Spec) : Obs → Prop
  | .started t => l.status (.main t) = .fresh ∧ l.status (.disp t) = .fresh ∧ l.cur t = none
  | .spawned _ x => l.status x = .fresh ∧ pinned x = false
  | .ready t x => l.status x = .out ∧ l.free x ∧ (pinned x = true → own t x)
  | .take t v x => l.status x = .queued ∧ (pinned x = true → v = t ∧ own t x)
  | .run t x => l.status x = .taken t ∧ l.free x ∧ l.cur t ≠ none
  | .direct _ x => l.status x = .out ∧ l.free x
  | .blocked t x => l.status x = .out ∧ l.free x ∧ x ≠ .disp t ∧ (pinned x = true → own t x)
  | .woken t x => l.status x = .blocked t
  | .done _ x => l.status x = .out ∧ l.free x ∧ pinned x = false
  | .closing t => l.status (.main t) = .out ∧ l.free (.main t)
  | .ended t => l.cur t = some (.disp t) ∧ l.status (.disp t) = .out ∧ l.closing t = true ∧ ∀ x, pinned x = false → l.status x ≠ .blocked t
  | .ub => False

def after (l : Spec) : Obs → Spec
  | .started t => { l with status := set (set l.status (.main t) .out) (.disp t) .out, cur := upd l.cur t (some (.main t)) }
  | .spawned _ x => { l with status := set l.status x .out }
  | .ready _ x => { l with status := set l.status x .queued }
  | .take t _ x => { l with status := set l.status x (.taken t) }
  | .run t x => { l with status := set l.status x .out, cur := upd l.cur t (some x) }
  | .direct t x => { l with cur := upd l.cur t (some x) }
  | .blocked t x => { l with status := set l.status x (.blocked t) }
  | .woken _ x => { l with status := set l.status x .out }
  | .done _ x => { l with status := set l.status x .gone }
  | .closing t => { l with status := set l.status (.main t) .gone, closing := upd l.closing t true }
  | .ended t => { l with status := set l.status (.disp t) .gone, cur := upd l.cur t none }
  | .ub => l

def replay (tr : List Obs) : Spec := tr.foldl after .init

/-- Every observation is allowed by those before it. -/
def Runs : Spec → List Obs → Prop
  | _, [] => True
  | l, x :: r => ok l x ∧ Runs (after l x) r

theorem Runs.append {l : Spec} {a b : List Obs} (h1 : Runs l a) (h2 : Runs (a.foldl after l) b) : Runs l (a ++ b) := by
  induction a generalizing l with
  | nil => exact h2
  | cons x r ih => exact ⟨h1.1, ih h1.2 h2⟩

theorem Runs.left {l : Spec} {a b : List Obs} (h : Runs l (a ++ b)) : Runs l a := by
  induction a generalizing l with
  | nil => trivial
  | cons x r ih => exact ⟨h.1, ih h.2⟩

theorem Runs.split {l : Spec} {a b : List Obs} {x : Obs} (h : Runs l (a ++ x :: b)) : ok (a.foldl after l) x := by
  induction a generalizing l with
  | nil => exact h.1
  | cons y r ih => exact ih h.2

end Verif.Multi
