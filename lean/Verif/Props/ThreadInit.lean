import Verif.ThreadInit

/-!
# C96: a thread has one scheduler, with the algorithm asked for, as long as it uses fibers
-/

namespace Verif.Props.ThreadInit

open Verif.ThreadInit

/-! ## Specification -/

/-- The algorithm the thread is to have: the one asked for last, or the default one. -/
def wanted (tr : List Obs) : Nat :=
  tr.foldl (fun a o => match o with | .asked b => b | _ => a) 0

/-- The schedulers that have been created. -/
def created (tr : List Obs) : List Nat :=
  tr.filterMap fun o => match o with | .created j _ => some j | _ => none

/-- The schedulers that have been destroyed. -/
def destroyed (tr : List Obs) : List Nat :=
  tr.filterMap fun o => match o with | .destroyed j => some j | _ => none

/-- The thread has ended: all its `thread_local` objects have been destroyed. -/
def Ended (s : State) : Prop := s.exiting = true ∧ s.locals = [] ∧ s.drain = none

/-- What has happened since the thread has begun to destroy its scheduler. -/
def late (tr : List Obs) : List Obs := tr.dropWhile (· ≠ .ending)

/-- The user has called `initialize_thread` since then. -/
def AskedLate (tr : List Obs) : Prop := ∃ a, .asked a ∈ late tr

/-! ## What holds in all states -/

/-- Scheduler `j` has not been destroyed. -/
def live (s : State) (j : Nat) : Bool := j = 0 ∧ (s.static = .built ∨ s.drain = some 0)

structure Inv (s : State) (tr : List Obs) : Prop where
  first : s.static = .notYet → s.counter = 0 ∧ s.active = none ∧ s.next = 0 ∧ s.drain = none ∧ Local.lib ∉ s.locals ∧ wanted tr = 0
  built : s.static = .built → s.counter = 1 ∧ s.active = some 0 ∧ s.next = 1 ∧ s.drain = none ∧ s.locals.count .lib = 1 ∧ s.algo 0 = wanted tr
  gone : s.static = .gone → s.counter = 0 ∧ 0 < s.next ∧ Local.lib ∉ s.locals ∧ (s.active = none ∨ (s.active = some 0 ∧ s.drain = some 0 ∧ s.next = 1 ∧ s.algo 0 = wanted tr)) ∧
    (s.drain = none ∨ s.drain = some 0)
  begun : s.static = .gone ↔ .ending ∈ tr
  why : s.static = .gone → (s.active = none ↔ 0 ∈ destroyed tr ∨ AskedLate tr)
  made : created tr = List.range s.next
  ended : ∀ j, (destroyed tr).count j + (if live s j then 1 else 0) = if j < s.next then 1 else 0

theorem wanted_append (tr o : List Obs) : wanted (tr ++ o) = o.foldl (fun a o => match o with | .asked b => b | _ => a) (wanted tr) := by
  simp [wanted, List.foldl_append]

theorem created_append (tr o : List Obs) : created (tr ++ o) = created tr ++ created o := by simp [created, List.filterMap_append]

theorem destroyed_append (tr o : List Obs) : destroyed (tr ++ o) = destroyed tr ++ destroyed o := by simp [destroyed, List.filterMap_append]

theorem late_append {tr : List Obs} (o : List Obs) (h : .ending ∈ tr) : late (tr ++ o) = late tr ++ o := by
  induction tr with
  | nil => cases h
  | cons x tr ih =>
    by_cases hx : x = .ending
    · subst hx; simp [late]
    · have := ih (by simpa [Ne.symm hx] using h)
      simp only [late, List.cons_append, List.dropWhile_cons] at this ⊢
      simpa [hx] using this

theorem late_end {tr : List Obs} (h : .ending ∉ tr) : late (tr ++ [.ending]) = [.ending] := by
  induction tr with
  | nil => simp [late]
  | cons x tr ih =>
    simp only [List.mem_cons, not_or] at h
    have := ih h.2
    simp only [late, List.cons_append, List.dropWhile_cons] at this ⊢
    simpa [Ne.symm h.1] using this

theorem asked_append {tr : List Obs} {o : List Obs} (h : .ending ∈ tr) : AskedLate (tr ++ o) ↔ AskedLate tr ∨ ∃ a, .asked a ∈ o := by
  simp only [AskedLate, late_append o h, List.mem_append]
  grind

theorem inv_step {s s' : State} {tr o : List Obs} {e : Event} (I : Inv s tr) (he : step s e = some (s', o)) : Inv s' (tr ++ o) := by
  obtain ⟨h1, h2, h3, h6, h7, h4, h5⟩ := I
  simp only [step] at he
  split at he
  · cases he
  cases e with
  | use =>
    simp only [Option.some.injEq, use] at he
    cases hst : s.static with
    | notYet =>
      obtain ⟨a1, a2, a3, a4, a5, a6⟩ := h1 hst
      simp only [hst, if_true, build, create, a1, Prod.mk.injEq] at he
      obtain ⟨rfl, rfl⟩ := he
      refine ⟨by simp, fun _ => ?_, by simp, by simpa [hst] using h6, by simp, ?_, fun j => ?_⟩
      · refine ⟨by simp, by simp [a3], by simp [a3], a4, by simpa [List.count_eq_zero] using a5, ?_⟩
        simp [wanted_append, a6, a3]
      · rw [created_append, h4]; simp [created, a3]
      · have := h5 j
        rw [destroyed_append]
        simp [destroyed, live, hst, a3, a4] at this ⊢
        simp [this] <;> grind
    | built =>
      obtain ⟨a1, a2, a3, a4, a5, a6⟩ := h2 hst
      simp only [hst, reduceCtorEq, if_false, a2, Prod.mk.injEq] at he
      obtain ⟨rfl, rfl⟩ := he
      refine ⟨by simp [hst], fun _ => ⟨a1, a2, a3, a4, a5, by simpa [wanted_append] using a6⟩, by simp [hst], by simpa [hst] using h6, by simp [hst], ?_, fun j => ?_⟩
      · rw [created_append, h4]; simp [created]
      · have := h5 j
        rw [destroyed_append]
        simpa [destroyed] using this
    | gone =>
      obtain ⟨a1, a2, a3, a4, a5⟩ := h3 hst
      have hw := h7 hst
      have hm := h6.1 hst
      simp only [hst, reduceCtorEq, if_false] at he
      rcases a4 with a4 | ⟨b1, b2, b3, b4⟩
      · simp only [a4, Prod.mk.injEq] at he
        obtain ⟨rfl, rfl⟩ := he
        refine ⟨by simp, by simp, fun _ => ⟨a1, a2, a3, .inl rfl, a5⟩, by simp [hm], fun _ => ?_, ?_, fun j => ?_⟩
        · rw [asked_append hm, destroyed_append]; simpa [a4, destroyed] using hw
        · rw [created_append, h4]; simp [created]
        · have := h5 j
          rw [destroyed_append]
          simpa [destroyed, live, hst] using this
      · simp only [b1, Prod.mk.injEq] at he
        obtain ⟨rfl, rfl⟩ := he
        refine ⟨by simp [hst], by simp [hst], fun _ => ⟨a1, a2, a3, .inr ⟨b1, b2, b3, by simpa [wanted_append] using b4⟩, a5⟩, by simp [hst, hm], fun _ => ?_, ?_, fun j => ?_⟩
        · rw [asked_append hm, destroyed_append]; simpa [destroyed] using hw
        · rw [created_append, h4]; simp [created]
        · have := h5 j
          rw [destroyed_append]
          simpa [destroyed, live, hst] using this
  | initThread a =>
    simp only [Option.some.injEq, initThread] at he
    cases hst : s.static with
    | notYet =>
      obtain ⟨a1, a2, a3, a4, a5, a6⟩ := h1 hst
      simp only [hst, if_true, build, create, a1, Prod.mk.injEq] at he
      simp at he
      obtain ⟨rfl, rfl⟩ := he
      refine ⟨by simp, fun _ => ?_, by simp, by simpa [hst] using h6, by simp, ?_, fun j => ?_⟩
      · refine ⟨by simp, by simp [a3], by simp [a3], a4, by simpa [List.count_eq_zero] using a5, ?_⟩
        simp [wanted_append, a3]
      · rw [created_append, h4]; simp [created, a3]
      · have := h5 j
        rw [destroyed_append]
        simp [destroyed, live, hst, a3, a4] at this ⊢
        simp [this] <;> grind
    | built =>
      obtain ⟨a1, a2, a3, a4, a5, a6⟩ := h2 hst
      simp only [hst, a1, a2, Prod.mk.injEq] at he
      simp at he
      obtain ⟨rfl, rfl⟩ := he
      refine ⟨by simp, fun _ => ⟨by simp, by simp, a3, a4, a5, by simp [wanted_append]⟩, by simp, by simpa [hst] using h6, by simp, ?_, fun j => ?_⟩
      · rw [created_append, h4]; simp [created]
      · have := h5 j
        rw [destroyed_append]
        simpa [destroyed, live, hst] using this
    | gone =>
      obtain ⟨a1, a2, a3, a4, a5⟩ := h3 hst
      have hm := h6.1 hst
      simp only [hst, if_true, create, a1, reduceCtorEq, if_false, Prod.mk.injEq] at he
      simp at he
      obtain ⟨rfl, rfl⟩ := he
      refine ⟨by simp, by simp, fun _ => ⟨by simp, by simp, a3, .inl rfl, a5⟩, by simp [hm], fun _ => ?_, ?_, fun j => ?_⟩
      · rw [asked_append hm]; simp
      · rw [created_append, h4]; simp [created, List.range_succ]
      · have := h5 j
        rw [destroyed_append, List.count_append]
        simp [destroyed, live, hst] at this ⊢
        grind
  | construct =>
    simp only [Option.some.injEq, Prod.mk.injEq] at he
    obtain ⟨rfl, rfl⟩ := he
    constructor <;> grind [live]
  | exit =>
    simp only at he
    split at he
    · cases he
    · simp only [Option.some.injEq, Prod.mk.injEq] at he
      obtain ⟨rfl, rfl⟩ := he
      constructor <;> grind [live]
  | destruct =>
    simp only at he
    split at he
    · split at he
      · cases he
      · simp only [Option.some.injEq, Prod.mk.injEq] at he
        obtain ⟨rfl, rfl⟩ := he
        constructor <;> grind [live]
      · rename_i l hl
        simp only [Option.some.injEq, Prod.mk.injEq] at he
        obtain ⟨rfl, rfl⟩ := he
        have hst : s.static = .built := by
          cases hst : s.static with
          | built => rfl
          | notYet => simp [hl, hst] at h1
          | gone => simp [hl, hst] at h3
        obtain ⟨a1, a2, a3, a4, a5, a6⟩ := h2 hst
        have hm : Obs.ending ∉ tr := fun h => by simp [h6.2 h] at hst
        have hd0 : 0 ∉ destroyed tr := by
          have := h5 0
          simp [live, hst, a3] at this
          exact List.count_eq_zero.1 this
        refine ⟨by simp [tearDown], by simp [tearDown], fun _ => ?_, by simp [tearDown], fun _ => ?_, ?_, fun j => ?_⟩
        · rw [hl] at a5
          simp [List.count_cons, List.count_eq_zero] at a5
          simp [tearDown, a1, a2, a3, a5, a6, wanted_append]
        · simp only [tearDown, a2, AskedLate, late_end hm, destroyed_append, List.mem_append]
          simp [hd0, show destroyed [.ending] = [] from rfl]
        · rw [created_append, h4]; simp [created, tearDown]
        · have := h5 j
          rw [destroyed_append]
          simpa [tearDown, a1, a2, live, hst, destroyed] using this
    · cases he
  | drained =>
    simp only at he
    split at he
    · cases he
    · rename_i i hd
      have hst : s.static = .gone := by
        cases hst : s.static with
        | gone => rfl
        | notYet => simp [hd, hst] at h1
        | built => simp [hd, hst] at h2
      obtain ⟨a1, a2, a3, a4, a5⟩ := h3 hst
      have hw := h7 hst
      have hm := h6.1 hst
      obtain rfl : i = 0 := by simpa [hd] using a5
      split at he <;> rename_i ha <;> simp only [Option.some.injEq, Prod.mk.injEq] at he <;> obtain ⟨rfl, rfl⟩ := he
      · refine ⟨by simp [hst], by simp [hst], fun _ => ⟨a1, a2, a3, .inl rfl, .inl rfl⟩, by simp [hst, hm], fun _ => ?_, ?_, fun j => ?_⟩
        · rw [destroyed_append]; simp [destroyed]
        · rw [created_append, h4]; simp [created]
        · have := h5 j
          rw [destroyed_append, List.count_append]
          simp [destroyed, live, hst, hd] at this ⊢
          grind
      · refine ⟨by simp [hst], by simp [hst], fun _ => ⟨a1, a2, a3, .inl ha, a5⟩, by simp [hst, hm], fun _ => ?_, ?_, fun j => ?_⟩
        · rw [asked_append hm, destroyed_append]; simpa [ha, destroyed] using hw
        · rw [created_append, h4]; simp [created]
        · have := h5 j
          rw [destroyed_append]
          simpa [destroyed, live] using this

theorem inv_reach {s : State} {tr : List Obs} (h : Reach step init s tr) : Inv s tr :=
  h.inv Inv ⟨by simp [init, wanted], by simp [init], by simp [init], by simp [init], by simp [init], by simp [init, created], by simp [init, destroyed, live]⟩
    fun _ _ _ _ _ _ I he => inv_step I he

/-! ## Theorems -/

/-- Until a thread begins to destroy its scheduler, fibers can be used: what is done is done by the only scheduler there has been, which has the algorithm asked for last (the default one, if none has
been asked for). -/
theorem one_scheduler_partial {s s' : State} {tr o : List Obs} (h : Reach step init s tr) (hl : .ending ∉ tr) (he : step s .use = some (s', o)) :
    ∃ j, created (tr ++ o) = [j] ∧ destroyed (tr ++ o) = [] ∧ .used j ∈ o ∧ .crash ∉ o ∧ s'.algo j = wanted tr := by
  have I := inv_reach h
  have I' := inv_step I he
  simp only [step] at he
  split at he
  · cases he
  simp only [Option.some.injEq, use] at he
  have key : s'.static = .built → wanted (tr ++ o) = wanted tr → .used 0 ∈ o → .crash ∉ o →
      ∃ j, created (tr ++ o) = [j] ∧ destroyed (tr ++ o) = [] ∧ .used j ∈ o ∧ .crash ∉ o ∧ s'.algo j = wanted tr := by
    intro h1 h2 h3 h4
    obtain ⟨_, _, a3, a4, _, a6⟩ := I'.built h1
    refine ⟨0, by rw [I'.made, a3]; rfl, ?_, h3, h4, by rw [a6, h2]⟩
    refine List.eq_nil_iff_forall_not_mem.2 fun j hj => ?_
    have h5 := I'.ended j
    have h6 := List.count_pos_iff.2 hj
    rw [a3] at h5
    simp [live, h1] at h5
    grind
  cases hst : s.static with
  | notYet =>
    obtain ⟨a1, a2, a3, a4, a5, a6⟩ := I.first hst
    simp only [hst, if_true, build, create, a1, Prod.mk.injEq] at he
    obtain ⟨rfl, rfl⟩ := he
    exact key rfl (by simp [wanted_append]) (by simp [a3]) (by simp)
  | built =>
    obtain ⟨a1, a2, a3, a4, a5, a6⟩ := I.built hst
    simp only [hst, reduceCtorEq, if_false, a2, Prod.mk.injEq] at he
    obtain ⟨rfl, rfl⟩ := he
    exact key hst (by simp [wanted_append]) (by simp) (by simp)
  | gone => exact absurd (I.begun.1 hst) hl

/-- Until then, `initialize_thread` returns true if and only if fibers have not been used before; in both cases the only scheduler there has been has the algorithm from then on. -/
theorem initialize_tells_partial {s s' : State} {tr o : List Obs} {a : Nat} (h : Reach step init s tr) (hl : .ending ∉ tr) (he : step s (.initThread a) = some (s', o)) :
    (∃ b, .returned b ∈ o ∧ (b = true ↔ created tr = [])) ∧ (∀ b c, .returned b ∈ o → .returned c ∈ o → b = c) ∧ .crash ∉ o ∧
      ∃ j, created (tr ++ o) = [j] ∧ destroyed (tr ++ o) = [] ∧ s'.active = some j ∧ s'.algo j = a := by
  have I := inv_reach h
  have I' := inv_step I he
  simp only [step] at he
  split at he
  · cases he
  simp only [Option.some.injEq, initThread] at he
  have key : s'.static = .built → wanted (tr ++ o) = a → ∃ j, created (tr ++ o) = [j] ∧ destroyed (tr ++ o) = [] ∧ s'.active = some j ∧ s'.algo j = a := by
    intro h1 h2
    obtain ⟨_, a2, a3, a4, _, a6⟩ := I'.built h1
    refine ⟨0, by rw [I'.made, a3]; rfl, ?_, a2, by rw [a6, h2]⟩
    refine List.eq_nil_iff_forall_not_mem.2 fun j hj => ?_
    have h5 := I'.ended j
    have h6 := List.count_pos_iff.2 hj
    rw [a3] at h5
    simp [live, h1] at h5
    grind
  cases hst : s.static with
  | notYet =>
    obtain ⟨a1, a2, a3, a4, a5, a6⟩ := I.first hst
    simp only [hst, if_true, build, create, a1, Prod.mk.injEq] at he
    simp at he
    obtain ⟨rfl, rfl⟩ := he
    refine ⟨⟨true, by simp, by simp [I.made, a3]⟩, by simp, by simp, key rfl (by simp [wanted_append])⟩
  | built =>
    obtain ⟨a1, a2, a3, a4, a5, a6⟩ := I.built hst
    simp only [hst, a1, a2, Prod.mk.injEq] at he
    simp at he
    obtain ⟨rfl, rfl⟩ := he
    refine ⟨⟨false, by simp, by simp [I.made, a3]⟩, by simp, by simp, key rfl (by simp [wanted_append])⟩
  | gone => exact absurd (I.begun.1 hst) hl

/-- Fibers that have not ended when the thread begins to destroy its scheduler, and destructors of `thread_local` objects, can use fibers exactly until the scheduler has been destroyed,
and if nobody has called `initialize_thread` meanwhile. -/
theorem late_use {s s' : State} {tr o : List Obs} (h : Reach step init s tr) (hl : .ending ∈ tr) (he : step s .use = some (s', o)) :
    .crash ∈ o ↔ 0 ∈ destroyed tr ∨ AskedLate tr := by
  have I := inv_reach h
  have hst := I.begun.2 hl
  rw [← I.why hst]
  simp only [step] at he
  split at he
  · cases he
  simp only [Option.some.injEq, use, hst, reduceCtorEq, if_false] at he
  split at he <;> rename_i ha <;> simp only [Prod.mk.injEq] at he <;> obtain ⟨rfl, rfl⟩ := he <;> simp [ha]

/-- In all executions: a scheduler is destroyed at most once, and not unless it was created; when the thread has ended, all have been destroyed. -/
theorem destroyed_once {s : State} {tr : List Obs} (h : Reach step init s tr) :
    (created tr).Nodup ∧ (destroyed tr).Nodup ∧ (∀ j ∈ destroyed tr, j ∈ created tr) ∧ (Ended s → ∀ j ∈ created tr, j ∈ destroyed tr) := by
  have I := inv_reach h
  refine ⟨by rw [I.made]; exact List.nodup_range, List.nodup_iff_count.2 fun j => ?_, fun j hj => ?_, fun he j hj => ?_⟩
  · have := I.ended j; grind
  · have := I.ended j
    have hc := List.count_pos_iff.2 hj
    rw [I.made, List.mem_range]
    grind
  · have := I.ended j
    rw [I.made, List.mem_range] at hj
    have hb : s.static ≠ .built := fun hb => by
      have := (I.built hb).2.2.2.2.1
      rw [he.2.1] at this
      simp at this
    have hlv : live s j = false := by simp [live, hb, he.2.2]
    rw [hlv] at this
    simp [hj] at this
    exact List.count_pos_iff.1 (by omega)

/-- What the full claim says: whatever a thread does until it ends, fibers can be used, and after a call of `initialize_thread` the thread has a scheduler with the algorithm. -/
def Claim : Prop :=
  ∀ s tr, Reach step init s tr → .crash ∉ tr ∧ ∀ a s' o, step s (.initThread a) = some (s', o) → ∃ j, s'.active = some j ∧ s'.algo j = a

/-- It does not hold: the destructor of a `thread_local` object that was constructed before the thread used fibers uses fibers. -/
theorem claim_fails : ¬ Claim := by
  intro h
  have hr : (exec step init [.construct, .use, .exit, .destruct, .drained, .destruct, .use]).isSome := by decide +kernel
  obtain ⟨⟨s, tr⟩, hx⟩ := Option.isSome_iff_exists.1 hr
  have h1 := (h s tr (reach_of_exec hx)).1
  have h2 : tr = [.created 0 0, .used 0, .ending, .destroyed 0, .crash] := by
    have := congrArg (Option.map Prod.snd) hx
    have h3 : (exec step init [.construct, .use, .exit, .destruct, .drained, .destruct, .use]).map Prod.snd = some [.created 0 0, .used 0, .ending, .destroyed 0, .crash] := by decide +kernel
    rw [h3] at this
    exact (Option.some.inj this).symm
  simp [h2] at h1

/-! ## Examples -/

/-- A fiber that has not ended when the thread ends asks for a scheduling algorithm: a second scheduler is created and destroyed at once, the call returns true; what the fiber does next crashes. -/
example : (exec step init [.initThread 3, .use, .exit, .destruct, .use, .initThread 5, .use]).map Prod.snd
    = some [.asked 3, .created 0 3, .returned true, .used 0, .ending, .used 0, .asked 5, .created 1 5, .destroyed 1, .returned true, .crash] := by
  decide +kernel

/-- If it does nothing of that kind, it comes to its end, and so does the thread. -/
example : (exec step init [.use, .initThread 3, .construct, .use, .exit, .destruct, .use, .destruct, .use, .drained]).map Prod.snd
    = some [.created 0 0, .used 0, .asked 3, .changed 0 3, .returned false, .used 0, .used 0, .ending, .used 0, .destroyed 0] := by
  decide +kernel

/-- The hypotheses of `one_scheduler_partial` and `initialize_tells_partial` are met after a change of the algorithm. -/
example : ∃ s tr, Reach step init s tr ∧ .ending ∉ tr ∧ wanted tr = 3 ∧ (∃ s' o, step s .use = some (s', o)) ∧ ∃ s' o, step s (.initThread 4) = some (s', o) := by
  have hr : (exec step init [.use, .initThread 3]).isSome := by decide +kernel
  obtain ⟨⟨s, tr⟩, hx⟩ := Option.isSome_iff_exists.1 hr
  have h3 : (exec step init [.use, .initThread 3]).map (fun x => (x.2, x.1.crashed)) = some ([.created 0 0, .used 0, .asked 3, .changed 0 3, .returned false], false) := by decide +kernel
  rw [hx] at h3
  simp only [Option.map_some, Option.some.injEq, Prod.mk.injEq] at h3
  refine ⟨s, tr, reach_of_exec hx, by simp [h3.1], by simp [h3.1, wanted], ?_, ?_⟩
  · exact ⟨(use s).1, (use s).2, by simp [step, h3.2]⟩
  · exact ⟨(initThread s 4).1, .asked 4 :: (initThread s 4).2, by simp [step, h3.2]⟩

end Verif.Props.ThreadInit
