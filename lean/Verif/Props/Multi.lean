import Verif.MultiStep

/-!
# `shared_work` and `work_stealing`: every ready fiber is run once, by one thread (C48; also C41, C47, C49, C68)

`ok` / `after` (`Verif/MultiSpec.lean`): the specification. All theorems are about any number of threads and any
interleaving of any length.
-/

namespace Verif.Multi

open Verif.Sch (Cx Tid set set_apply set_same set_other)

variable {st : Bool} {n : Nat} {s s' : State} {tr : List Obs} {t u v : Tid} {x : Cx}

/-! ## Every ready fiber is picked exactly once, and by its own thread if it is pinned (C48) -/

/-- How often `x` became ready. -/
def readies (x : Cx) (tr : List Obs) : Nat := tr.countP fun | .ready _ y => y == x | _ => false

/-- How often `x` was taken from a queue. -/
def takes (x : Cx) (tr : List Obs) : Nat := tr.countP fun | .take _ _ y => y == x | _ => false

/-- How often a thread switched to `x` after it was picked. -/
def runs (x : Cx) (tr : List Obs) : Nat := tr.countP fun | .run _ y => y == x | _ => false

/-- The observation is about `x`. -/
def about (x : Cx) : Obs → Bool
  | .spawned _ y | .ready _ y | .take _ _ y | .run _ y | .direct _ y | .blocked _ y | .woken _ y | .done _ y => y == x
  | .started t => .main t == x || .disp t == x
  | .closing t => .main t == x
  | .ended t => .disp t == x
  | .ub => true

theorem after_about {l : Spec} {o : Obs} (h : about x o = false) : (after l o).status x = l.status x := by
  cases o <;> simp only [about, after, set_apply] at h ⊢ <;> grind

theorem foldl_about {l : Spec} {b : List Obs} (h : ∀ o ∈ b, about x o = false) : (b.foldl after l).status x = l.status x := by
  induction b generalizing l with
  | nil => rfl
  | cons o b ih =>
    rw [List.foldl_cons, ih (fun o ho => h o (List.mem_cons_of_mem _ ho)), after_about (h o (List.mem_cons_self ..))]

theorem Reach.ok_at {a b : List Obs} {o : Obs} (h : Reach step (init st n) s (a ++ o :: b)) : ok (replay a) o :=
  Runs.split (reach_inv h).1

/-- A fiber that has become ready is next taken from its queue (by some thread) … -/
theorem ready_then_take {a b c : List Obs} {o : Obs} (h : Reach step (init st n) s (a ++ .ready t x :: b ++ o :: c))
    (hb : ∀ o ∈ b, about x o = false) (ho : about x o = true) : ∃ u v, o = .take u v x := by
  have h1 := Reach.ok_at h
  rw [replay, List.foldl_append, List.foldl_cons] at h1
  have hs : (b.foldl after (after (a.foldl after .init) (.ready t x))).status x = .queued := by
    rw [foldl_about hb]; simp [after]
  generalize b.foldl after (after (a.foldl after .init) (.ready t x)) = l at h1 hs
  cases o <;> simp_all [about, ok] <;> grind

/-- … and a fiber that was taken by thread `t` is next run by thread `t`. -/
theorem take_then_run {a b c : List Obs} {o : Obs} (h : Reach step (init st n) s (a ++ .take t v x :: b ++ o :: c))
    (hb : ∀ o ∈ b, about x o = false) (ho : about x o = true) : o = .run t x := by
  have h1 := Reach.ok_at h
  rw [replay, List.foldl_append, List.foldl_cons] at h1
  have hs : (b.foldl after (after (a.foldl after .init) (.take t v x))).status x = .taken t := by
    rw [foldl_about hb]; simp [after]
  generalize b.foldl after (after (a.foldl after .init) (.take t v x)) = l at h1 hs
  cases o <;> simp_all [about, ok] <;> grind

def Status.inQueue : Status → Nat
  | .queued => 1
  | _ => 0

def Status.inHand : Status → Nat
  | .taken _ => 1
  | _ => 0

theorem spec_counts {l : Spec} {a : List Obs} (h : Runs l a) :
    readies x a + (l.status x).inQueue = takes x a + ((a.foldl after l).status x).inQueue ∧
    takes x a + (l.status x).inHand = runs x a + ((a.foldl after l).status x).inHand := by
  induction a generalizing l with
  | nil => simp [readies, takes, runs]
  | cons o a ih =>
    have h1 := ih h.2
    have h2 := h.1
    simp only [readies, takes, runs, List.countP_cons, List.foldl_cons] at h1 ⊢
    generalize (a.foldl after (after l o)) = l' at h1 ⊢
    cases o <;> simp only [ok, after, set_apply] at h1 h2 ⊢ <;> grind [Status.inQueue, Status.inHand]

/-- At every moment a fiber was taken as often as it became ready, except for the last time if it is still queued; and
run as often as taken, except for the last time if a thread is about to switch to it. -/
theorem picked_once (h : Reach step (init st n) s tr) :
    (readies x tr = takes x tr ∨ readies x tr = takes x tr + 1 ∧ (x ∈ s.shared ∨ ∃ t, x ∈ s.loc t)) ∧
    (takes x tr = runs x tr ∨ takes x tr = runs x tr + 1 ∧ ∃ t, (s.pc t).taken = some x) := by
  have h1 := reach_inv h
  have h2 := spec_counts (x := x) h1.1
  have h3 := h1.2.qu x
  have h4 := fun t => (h1.2.tak t x).2
  rw [replay] at h3 h4
  generalize (tr.foldl after .init).status x = q at h2 h3 h4
  cases q <;> simp only [Spec.init, Status.inQueue, Status.inHand] at h2 h3 h4 <;> grind

/-- A queued fiber is in one queue, once. -/
theorem queued_once (h : Reach step (init st n) s tr) :
    s.shared.Nodup ∧ (∀ t, (s.loc t).Nodup) ∧ (∀ t u, x ∈ s.loc t → x ∈ s.loc u → t = u) ∧ (x ∈ s.shared → x ∉ s.loc t) := by
  have h1 := (reach_inv h).2
  refine ⟨h1.ndS, h1.ndL, fun t u => h1.ll t u x, fun hs hl => ?_⟩
  cases hb : s.stealing with
  | true => simp [h1.modeS hb] at hs
  | false => simpa [h1.shW x hs] using h1.modeL hb t x hl

/-- The main fiber and the dispatcher of a thread are picked by that thread only … -/
theorem pinned_stay (h : Reach step (init st n) s tr) (ht : .take t v x ∈ tr) (hx : own u x) : t = u ∧ v = u := by
  obtain ⟨a, b, rfl⟩ := List.append_of_mem ht
  have h1 := (Reach.ok_at h).2 (by rcases hx with rfl | rfl <;> rfl)
  have h2 : t = u := by
    rcases hx with rfl | rfl <;> simp [own] at h1 <;> exact h1.2.symm
  exact ⟨h2, h1.1.trans h2⟩

/-- … and run by that thread only. -/
theorem pinned_run (h : Reach step (init st n) s tr) (hr : s.run t = some x) (hx : own u x) : t = u := by
  have h1 := (reach_inv h).2.homeR t x hr (by rcases hx with rfl | rfl <;> rfl)
  rcases hx with rfl | rfl <;> simp [own] at h1 <;> exact h1.symm

/-- No fiber runs on two threads at once; a running fiber is not queued. -/
theorem runs_once (h : Reach step (init st n) s tr) (hr : s.run t = some x) :
    (∀ u, s.run u = some x → u = t) ∧ x ∉ s.shared ∧ ∀ u, x ∉ s.loc u := by
  have h1 := (reach_inv h).2
  have h2 := h1.outR t x hr
  refine ⟨fun u hu => h1.rr u t x hu hr, fun hm => ?_, fun u hm => ?_⟩
  · have := h1.qSh x hm; rw [h2] at this; cases this
  · have := h1.qLo u x hm; rw [h2] at this; cases this

/-- `pick_next` never returns `nullptr` to a fiber that needs something to switch to. -/
theorem no_ub (h : Reach step (init st n) s tr) : .ub ∉ tr := by
  intro hm
  obtain ⟨a, b, rfl⟩ := List.append_of_mem hm
  exact Reach.ok_at h

/-- A fiber that was created and has neither finished nor blocked is running, queued, or in the hands of a thread. -/
theorem accounted_for (h : Reach step (init st n) s tr) (hx : s.st x = .live) :
    (∃ t, s.run t = some x) ∨ x ∈ s.shared ∨ (∃ t, x ∈ s.loc t) ∨ (∃ t, (s.pc t).held = some x) ∨ ∃ t, (s.pc t).taken = some x := by
  have h1 := (reach_inv h).2
  rcases h1.live x hx with hs | hs | ⟨t, hs⟩
  · rcases h1.out x hs with hr | hr
    · exact .inl hr
    · exact .inr (.inr (.inr (.inl hr)))
  · rcases h1.qu x hs with hr | hr
    · exact .inr (.inl hr)
    · exact .inr (.inr (.inl hr))
  · exact .inr (.inr (.inr (.inr ⟨t, (h1.tak t x).2 hs⟩)))

/-! ## Order -/

/-- The worker fibers that became ready, in order. -/
def readyW : List Obs → List Cx
  | [] => []
  | .ready _ x :: r => if pinned x then readyW r else x :: readyW r
  | _ :: r => readyW r

/-- The worker fibers that were taken, in order. -/
def takeW : List Obs → List Cx
  | [] => []
  | .take _ _ x :: r => if pinned x then takeW r else x :: takeW r
  | _ :: r => takeW r

/-- The fibers made ready by thread `v`. -/
def readyQ (v : Tid) : List Obs → List Cx
  | [] => []
  | .ready t x :: r => if t = v then x :: readyQ v r else readyQ v r
  | _ :: r => readyQ v r

/-- The fibers taken from the queue of thread `v`. -/
def takeQ (v : Tid) : List Obs → List Cx
  | [] => []
  | .take _ w x :: r => if w = v then x :: takeQ v r else takeQ v r
  | _ :: r => takeQ v r

theorem readyW_append (a b : List Obs) : readyW (a ++ b) = readyW a ++ readyW b := by
  induction a with
  | nil => rfl
  | cons o a ih => cases o <;> simp [readyW, ih]; split <;> simp

theorem takeW_append (a b : List Obs) : takeW (a ++ b) = takeW a ++ takeW b := by
  induction a with
  | nil => rfl
  | cons o a ih => cases o <;> simp [takeW, ih]; split <;> simp

theorem readyQ_append (a b : List Obs) : readyQ v (a ++ b) = readyQ v a ++ readyQ v b := by
  induction a with
  | nil => rfl
  | cons o a ih => cases o <;> simp [readyQ, ih]; split <;> simp

theorem takeQ_append (a b : List Obs) : takeQ v (a ++ b) = takeQ v a ++ takeQ v b := by
  induction a with
  | nil => rfl
  | cons o a ih => cases o <;> simp [takeQ, ih]; split <;> simp

theorem step_mode {e : Event} {o : List Obs} (hs : step s e = some (s', o)) : s'.stealing = s.stealing := by
  cases e <;> simp only [step, go, nothing] at hs <;> grind

theorem step_shared {l : Spec} (h : Inv s l) (hm : s.stealing = false) {e : Event} {o : List Obs} (hs : step s e = some (s', o)) :
    s.shared ++ readyW o = takeW o ++ s'.shared := by
  have h1 := h.shW
  have h2 := h.modeL hm
  have h3 := h.pushW
  cases e <;> simp only [step, go, nothing] at hs <;> grind [readyW, takeW]

theorem step_queue {l : Spec} (h : Inv s l) (hm : s.stealing = true) {e : Event} {o : List Obs} (hs : step s e = some (s', o)) :
    s.loc v ++ readyQ v o = takeQ v o ++ s'.loc v := by
  cases e with
  | go t =>
    simp only [step, go, nothing, hm] at hs
    by_cases hv : v = t
    · subst hv
      cases hp : s.pc v <;> simp only [hp, if_true] at hs <;> (repeat' split at hs) <;>
        simp only [Option.some.injEq, Prod.mk.injEq, reduceCtorEq, and_true, and_false] at hs <;> obtain ⟨rfl, rfl⟩ := hs <;> simp_all [readyQ, takeQ]
    · have hv' : t ≠ v := fun h => hv h.symm
      cases hp : s.pc t <;> simp only [hp, if_true] at hs <;> (repeat' split at hs) <;>
        simp only [Option.some.injEq, Prod.mk.injEq, reduceCtorEq, and_true, and_false] at hs <;> obtain ⟨rfl, rfl⟩ := hs <;>
        simp_all [readyQ, takeQ, upd_apply']
  | draw t id =>
    simp only [step, nothing] at hs
    by_cases hv : v = id
    · subst hv
      (repeat' split at hs) <;>
        simp only [Option.some.injEq, Prod.mk.injEq, reduceCtorEq, and_true, and_false] at hs <;> obtain ⟨rfl, rfl⟩ := hs <;> simp_all [readyQ, takeQ]
    · have hv' : id ≠ v := fun h => hv h.symm
      (repeat' split at hs) <;>
        simp only [Option.some.injEq, Prod.mk.injEq, reduceCtorEq, and_true, and_false] at hs <;> obtain ⟨rfl, rfl⟩ := hs <;>
        simp_all [readyQ, takeQ, upd_apply']
  | _ => simp only [step] at hs; grind [readyQ, takeQ, upd_apply']

theorem reach_mode (h : Reach step (init st n) s tr) : s.stealing = st := by
  induction h with
  | refl => rfl
  | tail e _ hs ih => rw [step_mode hs, ih]

/-- `shared_work`: worker fibers are taken in the order in which they became ready, on whatever threads. -/
theorem shared_fifo (h : Reach step (init false n) s tr) : readyW tr = takeW tr ++ s.shared := by
  induction h with
  | refl => rfl
  | tail e h hs ih =>
    have h1 := step_shared (reach_inv h).2 (reach_mode h) hs
    rw [readyW_append, takeW_append, ih, List.append_assoc, h1, List.append_assoc]

/-- `work_stealing`: fibers are taken from the queue of a thread, by this thread or by thieves, in the order in which
this thread made them ready. -/
theorem stealing_fifo (h : Reach step (init true n) s tr) : readyQ v tr = takeQ v tr ++ s.loc v := by
  induction h with
  | refl => rfl
  | tail e h hs ih =>
    have h1 := step_queue (v := v) (reach_inv h).2 (reach_mode h) hs
    rw [readyQ_append, takeQ_append, ih, List.append_assoc, h1, List.append_assoc]

end Verif.Multi
