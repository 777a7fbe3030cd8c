import Verif.SchedSim

/-! # The scheduler: what the specification says about a sequence of observations -/

namespace Verif.Sch

/-- The fibers that became ready on thread `t`, in order. -/
def readySeq (t : Tid) (tr : List Obs) : List Cx :=
  tr.filterMap fun | .ready u x => if u = t then some x else none | _ => none

/-- The ready fibers that thread `t` resumed, in order. -/
def runSeq (t : Tid) (tr : List Obs) : List Cx :=
  tr.filterMap fun | .run u x => if u = t then some x else none | _ => none

/-- The fibers that thread `t` switched to, in order. -/
def switchSeq (t : Tid) (tr : List Obs) : List Cx :=
  tr.filterMap fun | .run u x => if u = t then some x else none | .direct u x => if u = t then some x else none | _ => none

/-- The ready fibers of thread `t`: those that became ready and have not been resumed since. -/
def waiting (t : Tid) (tr : List Obs) : List Cx := (readySeq t tr).drop (runSeq t tr).length

/-- The fiber that thread `t` runs: the last one it started, resumed, or returned to. -/
def running (t : Tid) (tr : List Obs) : Option Cx := (replay tr).cur t

/-- Neither a wake-up nor a time-out of `x`. -/
def NoWake (x : Cx) (tr : List Obs) : Prop := .woken x ∉ tr ∧ ∀ n, .expired x n ∉ tr

variable {t : Tid} {x : Cx} {tr a b : List Obs}

theorem Runs.snoc_left {sp : Spec} {e : Obs} (h : Runs sp (a ++ [e])) : Runs sp a ∧ (a.foldl Spec.after sp).ok e :=
  ⟨h.left, Runs.split (b := []) h⟩

theorem replay_snoc (a : List Obs) (e : Obs) : replay (a ++ [e]) = (replay a).after e := by rw [replay_append]; rfl

theorem readySeq_append : readySeq t (a ++ b) = readySeq t a ++ readySeq t b := List.filterMap_append
theorem runSeq_append : runSeq t (a ++ b) = runSeq t a ++ runSeq t b := List.filterMap_append

/-- Induction on a sequence from its end. -/
theorem snoc_ind {P : List Obs → Prop} (h0 : P []) (h1 : ∀ a e, P a → P (a ++ [e])) (tr : List Obs) : P tr := by
  rw [← List.reverse_reverse tr]
  generalize tr.reverse = l
  induction l with
  | nil => exact h0
  | cons e l ih => rw [List.reverse_cons]; exact h1 _ _ ih

theorem seq_eq (h : Runs Spec.init tr) : readySeq t tr = runSeq t tr ++ (replay tr).q t := by
  induction tr using snoc_ind with
  | h0 => rfl
  | h1 a e ih =>
    obtain ⟨h1, h2⟩ := h.snoc_left
    have ih := ih h1
    change (replay a).ok e at h2
    rw [replay_snoc, readySeq_append, runSeq_append, ih]
    cases e with
    | ready u x =>
      by_cases hu : u = t
      · subst hu; simp [readySeq, runSeq, Spec.after]
      · simp [readySeq, runSeq, Spec.after, hu, upd_apply, Ne.symm hu]
    | run u x =>
      by_cases hu : u = t
      · subst hu
        obtain ⟨l, hl, _⟩ := h2
        simp [readySeq, runSeq, Spec.after, hl]
      · simp [readySeq, runSeq, Spec.after, hu, upd_apply, Ne.symm hu]
    | _ => simp [readySeq, runSeq, Spec.after]

theorem waiting_eq (h : Runs Spec.init tr) : waiting t tr = (replay tr).q t := by
  rw [waiting, seq_eq h, List.drop_left]

/-- A suspended fiber stays suspended until somebody wakes it or its time has come. -/
theorem stays_waiting {dl : Option Nat} (h : Runs Spec.init (a ++ .waits x dl :: b)) (hb : NoWake x b) :
    (replay (a ++ .waits x dl :: b)).st x = .waiting dl := by
  induction b using snoc_ind with
  | h0 => rw [replay_snoc]; simp [Spec.after]
  | h1 b e ih =>
    have hr : a ++ .waits x dl :: (b ++ [e]) = (a ++ .waits x dl :: b) ++ [e] := by simp
    rw [hr] at h ⊢
    obtain ⟨h1, h2⟩ := h.snoc_left
    simp only [NoWake, List.mem_append, List.mem_singleton, not_or] at hb
    have ih := ih h1 ⟨hb.1.1, fun n => (hb.2 n).1⟩
    change (replay (a ++ .waits x dl :: b)).ok e at h2
    rw [replay_snoc]
    generalize replay (a ++ .waits x dl :: b) = sp at ih h2
    cases e with
    | started u =>
      have e1 : x ≠ .main u := by rintro rfl; rw [h2.1] at ih; cases ih
      have e2 : x ≠ .disp u := by rintro rfl; rw [h2.2] at ih; cases ih
      simp [Spec.after, e1, e2, ih]
    | spawned u z y => have e1 : x ≠ y := by rintro rfl; rw [h2.1] at ih; cases ih
                       simp [Spec.after, e1, ih]
    | ready u y => have e1 : x ≠ y := by rintro rfl; have := h2.2.2; rw [ih] at this; simp at this
                   simp [Spec.after, e1, ih]
    | run u y => have e1 : x ≠ y := by rintro rfl; obtain ⟨l, h3⟩ := h2; rw [ih] at h3; simp at h3
                 simp [Spec.after, e1, ih]
    | direct u y => have e1 : x ≠ y := by rintro rfl; rw [h2.1] at ih; cases ih
                    simp [Spec.after, e1, ih]
    | waits y d => have e1 : x ≠ y := by rintro rfl; rw [h2.1] at ih; cases ih
                   simp [Spec.after, e1, ih]
    | woken y => have e1 : x ≠ y := by rintro rfl; simp at hb
                 simp [Spec.after, e1, ih]
    | expired y n => have e1 : x ≠ y := by rintro rfl; exact (hb.2 n).2 rfl
                     simp [Spec.after, e1, ih]
    | looked u n => simp [Spec.after, ih]
    | finished y => have e1 : x ≠ y := by rintro rfl; rw [h2.1] at ih; cases ih
                    simp [Spec.after, e1, ih]
    | released y => have e1 : x ≠ y := by rintro rfl; rw [h2.1] at ih; cases ih
                    simp [Spec.after, e1, ih]
    | exit u => have e1 : x ≠ .main u := by rintro rfl; rw [h2.1] at ih; cases ih
                simp [Spec.after, e1, ih]
    | stopped u => have e1 : x ≠ .disp u := by rintro rfl; rw [h2.2.1] at ih; cases ih
                   simp [Spec.after, e1, ih]
    | ended u => have e1 : x ≠ .main u := by rintro rfl; rw [h2.1] at ih; cases ih
                 simp [Spec.after, e1, ih]
    | assert u => exact ih
    | uaf u => exact ih
    | ub => exact h2.elim

/-- A fiber is suspended only by its own call. -/
theorem waiting_from {dl : Option Nat} (h : Runs Spec.init tr) (hw : (replay tr).st x = .waiting dl) :
    ∃ a b, tr = a ++ .waits x dl :: b ∧ NoWake x b := by
  induction tr using snoc_ind with
  | h0 => simp [replay, Spec.init] at hw
  | h1 a e ih =>
    obtain ⟨h1, h2⟩ := h.snoc_left
    rw [replay_snoc] at hw
    have key : (replay a).st x = .waiting dl → e ≠ .woken x → (∀ n, e ≠ .expired x n) →
        ∃ a' b, a ++ [e] = a' ++ .waits x dl :: b ∧ NoWake x b := by
      intro h3 h4 h5
      obtain ⟨a', b, rfl, hb⟩ := ih h1 h3
      refine ⟨a', b ++ [e], by simp, ?_⟩
      simp only [NoWake, List.mem_append, List.mem_singleton, not_or]
      exact ⟨⟨hb.1, h4.symm⟩, fun n => ⟨hb.2 n, (h5 n).symm⟩⟩
    cases e with
    | waits y d =>
      by_cases hy : x = y
      · subst hy
        simp [Spec.after] at hw
        subst hw
        exact ⟨a, [], rfl, by simp [NoWake]⟩
      · exact key (by simpa [Spec.after, hy] using hw) (by simp) (by simp)
    | started u =>
      simp only [Spec.after, set_apply] at hw
      split at hw
      · cases hw
      · split at hw
        · cases hw
        · exact key hw (by simp) (by simp)
    | looked u n => exact key hw (by simp) (by simp)
    | assert u => exact key hw (by simp) (by simp)
    | uaf u => exact key hw (by simp) (by simp)
    | ub => exact key hw (by simp) (by simp)
    | woken y =>
      simp only [Spec.after, set_apply] at hw
      split at hw
      · cases hw
      · rename_i hy; exact key hw (by simpa using Ne.symm hy) (by simp)
    | expired y m =>
      simp only [Spec.after, set_apply] at hw
      split at hw
      · cases hw
      · rename_i hy; exact key hw (by simp) (by intro n; simp; intro e; exact absurd e.symm hy)
    | _ =>
      simp only [Spec.after, set_apply] at hw
      split at hw
      · cases hw
      · exact key hw (by simp) (by simp)

/-- A finished fiber does nothing any more; it is released once. -/
theorem stays_done (h : Runs Spec.init (a ++ .finished x :: b)) :
    (replay (a ++ .finished x :: b)).st x = if .released x ∈ b then .released else .done := by
  induction b using snoc_ind with
  | h0 => rw [replay_snoc]; simp [Spec.after]
  | h1 b e ih =>
    have hr : a ++ .finished x :: (b ++ [e]) = (a ++ .finished x :: b) ++ [e] := by simp
    rw [hr] at h ⊢
    obtain ⟨h1, h2⟩ := h.snoc_left
    have ih := ih h1
    change (replay (a ++ .finished x :: b)).ok e at h2
    rw [replay_snoc]
    generalize replay (a ++ .finished x :: b) = sp at ih h2
    have hd : sp.st x = .released ∨ sp.st x = .done := by rw [ih]; split <;> simp
    have key : ∀ st, st ≠ .released → st ≠ .done → sp.st x ≠ st := by
      intro st e1 e2 e3; rcases hd with h | h <;> rw [h] at e3
      · exact e1 e3.symm
      · exact e2 e3.symm
    have mem : e ≠ .released x → (.released x ∈ b ++ [e] ↔ .released x ∈ b) := by
      intro h; simp [Ne.symm h]
    cases e with
    | released y =>
      by_cases e1 : x = y
      · subst e1; simp [Spec.after]
      · simp only [mem (by simpa using Ne.symm e1)]; simp [Spec.after, e1, ih]
    | started u =>
      have e1 : x ≠ .main u := by rintro rfl; exact key _ (by simp) (by simp) h2.1
      have e2 : x ≠ .disp u := by rintro rfl; exact key _ (by simp) (by simp) h2.2
      simp only [mem (by simp)]; simp [Spec.after, e1, e2, ih]
    | spawned u z y => have e1 : x ≠ y := by rintro rfl; exact key _ (by simp) (by simp) h2.1
                       simp only [mem (by simp)]; simp [Spec.after, e1, ih]
    | ready u y => have e1 : x ≠ y := by
                     rintro rfl
                     rcases h2.2.2 with h3 | h3 | h3
                     · exact key _ (by simp) (by simp) h3
                     · exact key _ (by simp) (by simp) h3
                     · exact key _ (by simp) (by simp) h3.1
                   simp only [mem (by simp)]; simp [Spec.after, e1, ih]
    | run u y => have e1 : x ≠ y := by rintro rfl; obtain ⟨l, h3⟩ := h2; exact key _ (by simp) (by simp) h3.2.1
                 simp only [mem (by simp)]; simp [Spec.after, e1, ih]
    | direct u y => have e1 : x ≠ y := by rintro rfl; exact key _ (by simp) (by simp) h2.1
                    simp only [mem (by simp)]; simp [Spec.after, e1, ih]
    | waits y d => have e1 : x ≠ y := by rintro rfl; exact key _ (by simp) (by simp) h2.1
                   simp only [mem (by simp)]; simp [Spec.after, e1, ih]
    | woken y => have e1 : x ≠ y := by rintro rfl; obtain ⟨dl, h3⟩ := h2; exact key _ (by simp) (by simp) h3
                 simp only [mem (by simp)]; simp [Spec.after, e1, ih]
    | expired y n => have e1 : x ≠ y := by rintro rfl; obtain ⟨dl, h3⟩ := h2; exact key _ (by simp) (by simp) h3.1
                     simp only [mem (by simp)]; simp [Spec.after, e1, ih]
    | looked u n => simp only [mem (by simp)]; simp [Spec.after, ih]
    | finished y => have e1 : x ≠ y := by rintro rfl; exact key _ (by simp) (by simp) h2.1
                    simp only [mem (by simp)]; simp [Spec.after, e1, ih]
    | exit u => have e1 : x ≠ .main u := by rintro rfl; exact key _ (by simp) (by simp) h2.1
                simp only [mem (by simp)]; simp [Spec.after, e1, ih]
    | stopped u => have e1 : x ≠ .disp u := by rintro rfl; exact key _ (by simp) (by simp) h2.2.1
                   simp only [mem (by simp)]; simp [Spec.after, e1, ih]
    | ended u => have e1 : x ≠ .main u := by rintro rfl; exact key _ (by simp) (by simp) h2.1
                 simp only [mem (by simp)]; simp [Spec.after, e1, ih]
    | assert u => simp only [mem (by simp)]; simp [Spec.after, ih]
    | uaf u => simp only [mem (by simp)]; simp [Spec.after, ih]
    | ub => exact h2.elim

/-- A fiber that has been released had been spawned and had finished. -/
theorem released_from (h : Runs Spec.init tr) :
    ((replay tr).st x = .done → .finished x ∈ tr) ∧ ((replay tr).st x = .released → .finished x ∈ tr ∧ .released x ∈ tr) := by
  induction tr using snoc_ind with
  | h0 => simp [replay, Spec.init]
  | h1 a e ih =>
    obtain ⟨h1, h2⟩ := h.snoc_left
    change (replay a).ok e at h2
    have ih := ih h1
    rw [replay_snoc]
    simp only [List.mem_append]
    cases e with
    | finished y =>
      simp only [Spec.after, set_apply]
      split
      · rename_i e; subst e; simp
      · grind
    | released y =>
      simp only [Spec.after, set_apply]
      split
      · rename_i e; subst e; have := ih.1 h2.1; simp [this]
      · grind
    | started u =>
      simp only [Spec.after, set_apply]
      split
      · simp
      · split
        · simp
        · grind
    | looked u n => simp only [Spec.after]; grind
    | assert u => simp only [Spec.after]; grind
    | uaf u => simp only [Spec.after]; grind
    | ub => exact h2.elim
    | _ =>
      simp only [Spec.after, set_apply]
      split
      · simp
      · grind

/-- A fiber belongs to one thread for its whole life. -/
theorem on_stable (h : Runs Spec.init (a ++ b)) (hx : (replay a).st x ≠ .absent) :
    (replay (a ++ b)).st x ≠ .absent ∧ (replay (a ++ b)).on x = (replay a).on x := by
  induction b using snoc_ind with
  | h0 => simp [hx]
  | h1 b e ih =>
    rw [← List.append_assoc] at h ⊢
    obtain ⟨h1, h2⟩ := h.snoc_left
    have ih := ih h1
    change (replay (a ++ b)).ok e at h2
    rw [replay_snoc]
    generalize replay (a ++ b) = sp at ih h2
    cases e with
    | started u =>
      have e1 : x ≠ .main u := by rintro rfl; exact ih.1 h2.1
      have e2 : x ≠ .disp u := by rintro rfl; exact ih.1 h2.2
      simpa [Spec.after, e1, e2] using ih
    | spawned u z y => have e1 : x ≠ y := by rintro rfl; exact ih.1 h2.1
                       simpa [Spec.after, e1] using ih
    | looked u n => exact ih
    | assert u => exact ih
    | uaf u => exact ih
    | ub => exact h2.elim
    | _ =>
      refine ⟨?_, ih.2⟩
      simp only [Spec.after, set_apply]; split
      · simp
      · exact ih.1

/-- A fiber that was spawned by thread `t` belongs to it. -/
theorem spawned_on {y : Cx} (h : Runs Spec.init tr) (hs : .spawned t x y ∈ tr) :
    (replay tr).st y ≠ .absent ∧ ((∃ n, y = .work n) → (replay tr).on y = t) := by
  induction tr using snoc_ind with
  | h0 => simp at hs
  | h1 a e ih =>
    obtain ⟨h1, h2⟩ := h.snoc_left
    change (replay a).ok e at h2
    rw [replay_snoc]
    by_cases he : e = .spawned t x y
    · subst he; simp [Spec.after]
    · have ih := ih h1 (by simpa [Ne.symm he] using hs)
      generalize replay a = sp at ih h2
      cases e with
      | spawned u z w =>
        have : y ≠ w := by rintro rfl; exact ih.1 h2.1
        simpa [Spec.after, this] using ih
      | started u =>
        refine ⟨?_, ?_⟩
        · simp only [Spec.after, set_apply]; split
          · simp
          · split
            · simp
            · exact ih.1
        · rintro ⟨n, rfl⟩; simpa [Spec.after] using ih.2
      | looked u n => exact ih
      | assert u => exact ih
      | uaf u => exact ih
      | ub => exact h2.elim
      | _ =>
        refine ⟨?_, ih.2⟩
        simp only [Spec.after, set_apply]; split
        · simp
        · exact ih.1

/-- `e` makes `x` runnable. -/
def Makes (x : Cx) (e : Obs) : Prop :=
  (∃ t z, e = .spawned t z x) ∨ e = .woken x ∨ (∃ n, e = .expired x n) ∨ ∃ t, e = .ready t x

/-- `x` has become runnable (it was created, woken, timed out, or replaced) and has not been resumed since. -/
def Runnable (x : Cx) (tr : List Obs) : Prop :=
  ∃ a e b, tr = a ++ e :: b ∧ Makes x e ∧ ∀ u, .run u x ∉ b ∧ .direct u x ∉ b

theorem runnable_st (h : Runs Spec.init tr) (hx : Runnable x tr) :
    (replay tr).st x = .fresh ∨ (replay tr).st x = .woken ∨ (replay tr).st x = .queued := by
  obtain ⟨a, e, b, rfl, hm, hb⟩ := hx
  induction b using snoc_ind with
  | h0 =>
    rw [replay_snoc]
    rcases hm with ⟨t, z, rfl⟩ | rfl | ⟨n, rfl⟩ | ⟨t, rfl⟩ <;> simp [Spec.after]
  | h1 b f ih =>
    have hr : a ++ e :: (b ++ [f]) = (a ++ e :: b) ++ [f] := by simp
    rw [hr] at h ⊢
    obtain ⟨h1, h2⟩ := h.snoc_left
    simp only [List.mem_append, List.mem_singleton, not_or] at hb
    have ih := ih h1 (fun u => ⟨(hb u).1.1, (hb u).2.1⟩)
    change (replay (a ++ e :: b)).ok f at h2
    rw [replay_snoc]
    generalize replay (a ++ e :: b) = sp at ih h2
    cases f with
    | started u =>
      have e1 : x ≠ .main u := by rintro rfl; rw [h2.1] at ih; simp at ih
      have e2 : x ≠ .disp u := by rintro rfl; rw [h2.2] at ih; simp at ih
      simpa [Spec.after, e1, e2] using ih
    | spawned u z y => have e1 : x ≠ y := by rintro rfl; rw [h2.1] at ih; simp at ih
                       simpa [Spec.after, e1] using ih
    | ready u y => by_cases e1 : x = y
                   · simp [Spec.after, e1]
                   · simpa [Spec.after, e1] using ih
    | run u y => have e1 : x ≠ y := by rintro rfl; exact (hb u).1.2 rfl
                 simpa [Spec.after, e1] using ih
    | direct u y => have e1 : x ≠ y := by rintro rfl; exact (hb u).2.2 rfl
                    simpa [Spec.after, e1] using ih
    | waits y d => have e1 : x ≠ y := by rintro rfl; rw [h2.1] at ih; simp at ih
                   simpa [Spec.after, e1] using ih
    | woken y => by_cases e1 : x = y
                 · simp [Spec.after, e1]
                 · simpa [Spec.after, e1] using ih
    | expired y n => by_cases e1 : x = y
                     · simp [Spec.after, e1]
                     · simpa [Spec.after, e1] using ih
    | looked u n => exact ih
    | finished y => have e1 : x ≠ y := by rintro rfl; rw [h2.1] at ih; simp at ih
                    simpa [Spec.after, e1] using ih
    | released y => have e1 : x ≠ y := by rintro rfl; rw [h2.1] at ih; simp at ih
                    simpa [Spec.after, e1] using ih
    | exit u => have e1 : x ≠ .main u := by rintro rfl; rw [h2.1] at ih; simp at ih
                simpa [Spec.after, e1] using ih
    | stopped u => have e1 : x ≠ .disp u := by rintro rfl; rw [h2.2.1] at ih; simp at ih
                   simpa [Spec.after, e1] using ih
    | ended u => have e1 : x ≠ .main u := by rintro rfl; rw [h2.1] at ih; simp at ih
                 simpa [Spec.after, e1] using ih
    | assert u => exact ih
    | uaf u => exact ih
    | ub => exact h2.elim

/-- A ready fiber stays ready until it is resumed from the queue. -/
theorem stays_queued (h : Runs Spec.init (a ++ .ready t x :: b)) (hb : ∀ u, .run u x ∉ b) :
    (replay (a ++ .ready t x :: b)).st x = .queued := by
  induction b using snoc_ind with
  | h0 => rw [replay_snoc]; simp [Spec.after]
  | h1 b e ih =>
    have hr : a ++ .ready t x :: (b ++ [e]) = (a ++ .ready t x :: b) ++ [e] := by simp
    rw [hr] at h ⊢
    obtain ⟨h1, h2⟩ := h.snoc_left
    simp only [List.mem_append, List.mem_singleton, not_or] at hb
    have ih := ih h1 fun u => (hb u).1
    change (replay (a ++ .ready t x :: b)).ok e at h2
    rw [replay_snoc]
    generalize replay (a ++ .ready t x :: b) = sp at ih h2
    cases e with
    | started u =>
      have e1 : x ≠ .main u := by rintro rfl; rw [h2.1] at ih; cases ih
      have e2 : x ≠ .disp u := by rintro rfl; rw [h2.2] at ih; cases ih
      simp [Spec.after, e1, e2, ih]
    | spawned u z y => have e1 : x ≠ y := by rintro rfl; rw [h2.1] at ih; cases ih
                       simp [Spec.after, e1, ih]
    | ready u y => by_cases e1 : x = y <;> simp [Spec.after, e1, ih]
    | run u y => have e1 : x ≠ y := by rintro rfl; exact (hb u).2 rfl
                 simp [Spec.after, e1, ih]
    | direct u y => have e1 : x ≠ y := by rintro rfl; rw [h2.1] at ih; cases ih
                    simp [Spec.after, e1, ih]
    | waits y d => have e1 : x ≠ y := by rintro rfl; rw [h2.1] at ih; cases ih
                   simp [Spec.after, e1, ih]
    | woken y => have e1 : x ≠ y := by rintro rfl; obtain ⟨l, h3⟩ := h2; rw [h3] at ih; cases ih
                 simp [Spec.after, e1, ih]
    | expired y n => have e1 : x ≠ y := by rintro rfl; obtain ⟨l, h3⟩ := h2; rw [h3.1] at ih; cases ih
                     simp [Spec.after, e1, ih]
    | looked u n => simp [Spec.after, ih]
    | finished y => have e1 : x ≠ y := by rintro rfl; rw [h2.1] at ih; cases ih
                    simp [Spec.after, e1, ih]
    | released y => have e1 : x ≠ y := by rintro rfl; rw [h2.1] at ih; cases ih
                    simp [Spec.after, e1, ih]
    | exit u => have e1 : x ≠ .main u := by rintro rfl; rw [h2.1] at ih; cases ih
                simp [Spec.after, e1, ih]
    | stopped u => have e1 : x ≠ .disp u := by rintro rfl; rw [h2.2.1] at ih; cases ih
                   simp [Spec.after, e1, ih]
    | ended u => have e1 : x ≠ .main u := by rintro rfl; rw [h2.1] at ih; cases ih
                 simp [Spec.after, e1, ih]
    | assert u => exact ih
    | uaf u => exact ih
    | ub => exact h2.elim

/-- A worker exists only if it was spawned. -/
theorem born_spawned {n : Nat} (h : (replay tr).st (.work n) ≠ .absent) : Runs Spec.init tr → ∃ t z, .spawned t z (.work n) ∈ tr := by
  induction tr using snoc_ind with
  | h0 => simp [replay, Spec.init] at h
  | h1 a e ih =>
    intro hr
    obtain ⟨h1, h2⟩ := hr.snoc_left
    change (replay a).ok e at h2
    by_cases h3 : (replay a).st (.work n) = .absent
    · rw [replay_snoc] at h
      generalize replay a = sp at h h2 h3
      cases e with
      | spawned u z y =>
        by_cases e1 : Cx.work n = y
        · subst e1; exact ⟨u, z, by simp⟩
        · simp [Spec.after, e1, h3] at h
      | ready u y => by_cases e1 : Cx.work n = y
                     · subst e1; have := h2.2.2; rw [h3] at this; simp at this
                     · simp [Spec.after, e1, h3] at h
      | run u y => by_cases e1 : Cx.work n = y
                   · subst e1; obtain ⟨l, h4⟩ := h2; rw [h3] at h4; simp at h4
                   · simp [Spec.after, e1, h3] at h
      | woken y => by_cases e1 : Cx.work n = y
                   · subst e1; obtain ⟨l, h4⟩ := h2; rw [h3] at h4; simp at h4
                   · simp [Spec.after, e1, h3] at h
      | expired y m => by_cases e1 : Cx.work n = y
                       · subst e1; obtain ⟨l, h4⟩ := h2; rw [h3] at h4; simp at h4
                       · simp [Spec.after, e1, h3] at h
      | direct u y => by_cases e1 : Cx.work n = y
                      · subst e1; have := h2.1; rw [h3] at this; simp at this
                      · simp [Spec.after, e1, h3] at h
      | waits y d => by_cases e1 : Cx.work n = y
                     · subst e1; have := h2.1; rw [h3] at this; simp at this
                     · simp [Spec.after, e1, h3] at h
      | finished y => by_cases e1 : Cx.work n = y
                      · subst e1; have := h2.1; rw [h3] at this; simp at this
                      · simp [Spec.after, e1, h3] at h
      | released y => by_cases e1 : Cx.work n = y
                      · subst e1; have := h2.1; rw [h3] at this; simp at this
                      · simp [Spec.after, e1, h3] at h
      | _ => simp [Spec.after, h3] at h
    · obtain ⟨t, z, h4⟩ := ih h3 h1
      exact ⟨t, z, by simp [h4]⟩

/-- The main fiber is exiting only after its function has returned, and over only after the thread has ended. -/
theorem main_from (h : Runs Spec.init tr) :
    ((replay tr).st (.main t) = .exiting → .exit t ∈ tr) ∧ ((replay tr).st (.main t) = .ended → .exit t ∈ tr ∧ .ended t ∈ tr) := by
  induction tr using snoc_ind with
  | h0 => simp [replay, Spec.init]
  | h1 a e ih =>
    obtain ⟨h1, h2⟩ := h.snoc_left
    change (replay a).ok e at h2
    have ih := ih h1
    rw [replay_snoc]
    simp only [List.mem_append]
    cases e with
    | exit y =>
      simp only [Spec.after, set_apply]
      split
      · rename_i e; cases e; simp
      · grind
    | ended y =>
      simp only [Spec.after, set_apply]
      split
      · rename_i e; cases e; have := ih.1 h2.1; simp [this]
      · grind
    | started u =>
      simp only [Spec.after, set_apply]
      split
      · simp
      · split
        · simp
        · grind
    | stopped y =>
      simp only [Spec.after, set_apply, reduceCtorEq, if_false]; grind
    | looked u n => simp only [Spec.after]; grind
    | assert u => simp only [Spec.after]; grind
    | uaf u => simp only [Spec.after]; grind
    | ub => exact h2.elim
    | _ =>
      simp only [Spec.after, set_apply]
      split
      · simp
      · grind

theorem exit_st (h : Runs Spec.init tr) (hx : .exit t ∈ tr) : (replay tr).st (.main t) = .exiting ∨ (replay tr).st (.main t) = .ended := by
  induction tr using snoc_ind with
  | h0 => simp at hx
  | h1 a e ih =>
    obtain ⟨h1, h2⟩ := h.snoc_left
    change (replay a).ok e at h2
    rw [replay_snoc]
    by_cases he : e = .exit t
    · subst he; simp [Spec.after]
    · have ih := ih h1 (by simpa [Ne.symm he] using hx)
      generalize replay a = sp at ih h2
      cases e with
      | ended u => by_cases e1 : t = u
                   · simp [Spec.after, e1]
                   · simpa [Spec.after, e1] using ih
      | exit u => have e1 : t ≠ u := by rintro rfl; exact he rfl
                  simpa [Spec.after, e1] using ih
      | started u =>
        have e1 : t ≠ u := by rintro rfl; rw [h2.1] at ih; simp at ih
        simpa [Spec.after, e1] using ih
      | spawned u z y => have e1 : Cx.main t ≠ y := by rintro rfl; rw [h2.1] at ih; simp at ih
                         simpa [Spec.after, e1] using ih
      | ready u y => have e1 : Cx.main t ≠ y := by rintro rfl; have := h2.2.2; rcases ih with ih | ih <;> rw [ih] at this <;> simp at this
                     simpa [Spec.after, e1] using ih
      | run u y => have e1 : Cx.main t ≠ y := by rintro rfl; obtain ⟨l, h3⟩ := h2; rcases ih with ih | ih <;> rw [ih] at h3 <;> simp at h3
                   simpa [Spec.after, e1] using ih
      | direct u y => have e1 : Cx.main t ≠ y := by rintro rfl; rw [h2.1] at ih; simp at ih
                      simpa [Spec.after, e1] using ih
      | waits y d => have e1 : Cx.main t ≠ y := by rintro rfl; rw [h2.1] at ih; simp at ih
                     simpa [Spec.after, e1] using ih
      | woken y => have e1 : Cx.main t ≠ y := by rintro rfl; obtain ⟨l, h3⟩ := h2; rw [h3] at ih; simp at ih
                   simpa [Spec.after, e1] using ih
      | expired y n => have e1 : Cx.main t ≠ y := by rintro rfl; obtain ⟨l, h3⟩ := h2; rw [h3.1] at ih; simp at ih
                       simpa [Spec.after, e1] using ih
      | finished y => have e1 : Cx.main t ≠ y := by rintro rfl; rw [h2.1] at ih; simp at ih
                      simpa [Spec.after, e1] using ih
      | released y => have e1 : Cx.main t ≠ y := by rintro rfl; rw [h2.1] at ih; simp at ih
                      simpa [Spec.after, e1] using ih
      | stopped u => simpa [Spec.after] using ih
      | looked u n => exact ih
      | assert u => exact ih
      | uaf u => exact ih
      | ub => exact h2.elim

theorem stays_ended (h : Runs Spec.init (a ++ .ended t :: b)) :
    (replay (a ++ .ended t :: b)).st (.main t) = .ended ∧ (replay (a ++ .ended t :: b)).cur t = none := by
  induction b using snoc_ind with
  | h0 => rw [replay_snoc]; simp [Spec.after]
  | h1 b e ih =>
    rw [show a ++ .ended t :: (b ++ [e]) = (a ++ .ended t :: b) ++ [e] by simp] at h ⊢
    obtain ⟨h1, h2⟩ := h.snoc_left
    obtain ⟨ih, ic⟩ := ih h1
    change (replay _).ok e at h2
    rw [replay_snoc]
    generalize replay (a ++ .ended t :: b) = sp at ih ic h2
    have hc : ∀ u, sp.cur u ≠ none → t ≠ u := by rintro u hu rfl; exact hu ic
    cases e with
    | ended u =>
      have e1 : t ≠ u := by rintro rfl; have := h2.1; rw [ih] at this; simp at this
      simpa [Spec.after, e1] using ⟨ih, ic⟩
    | exit u =>
      have e1 : t ≠ u := by rintro rfl; have := h2.1; rw [ih] at this; simp at this
      simpa [Spec.after, e1] using ⟨ih, ic⟩
    | started u =>
      have e1 : t ≠ u := by rintro rfl; have := h2.1; rw [ih] at this; simp at this
      simpa [Spec.after, e1] using ⟨ih, ic⟩
    | stopped u =>
      have e1 : t ≠ u := by rintro rfl; have := h2.1; rw [ih] at this; simp at this
      simpa [Spec.after, e1] using ⟨ih, ic⟩
    | spawned u z y => have e1 : Cx.main t ≠ y := by rintro rfl; have := h2.1; rw [ih] at this; simp at this
                       simpa [Spec.after, e1] using ⟨ih, ic⟩
    | ready u y => have e1 : Cx.main t ≠ y := by rintro rfl; have := h2.2.2; rw [ih] at this; simp at this
                   simpa [Spec.after, e1] using ⟨ih, ic⟩
    | run u y =>
      obtain ⟨l, h3⟩ := h2
      have e1 : Cx.main t ≠ y := by rintro rfl; rw [ih] at h3; simp at h3
      simpa [Spec.after, e1, hc u h3.2.2.2] using ⟨ih, ic⟩
    | direct u y =>
      have e1 : Cx.main t ≠ y := by rintro rfl; have := h2.1; rw [ih] at this; simp at this
      simpa [Spec.after, e1, hc u h2.2.2] using ⟨ih, ic⟩
    | waits y d => have e1 : Cx.main t ≠ y := by rintro rfl; have := h2.1; rw [ih] at this; simp at this
                   simpa [Spec.after, e1] using ⟨ih, ic⟩
    | woken y => have e1 : Cx.main t ≠ y := by rintro rfl; obtain ⟨l, h3⟩ := h2; rw [h3] at ih; simp at ih
                 simpa [Spec.after, e1] using ⟨ih, ic⟩
    | expired y n => have e1 : Cx.main t ≠ y := by rintro rfl; obtain ⟨l, h3⟩ := h2; rw [h3.1] at ih; simp at ih
                     simpa [Spec.after, e1] using ⟨ih, ic⟩
    | finished y => have e1 : Cx.main t ≠ y := by rintro rfl; have := h2.1; rw [ih] at this; simp at this
                    simpa [Spec.after, e1] using ⟨ih, ic⟩
    | released y => have e1 : Cx.main t ≠ y := by rintro rfl; have := h2.1; rw [ih] at this; simp at this
                    simpa [Spec.after, e1] using ⟨ih, ic⟩
    | looked u n => exact ⟨ih, ic⟩
    | assert u => exact ⟨ih, ic⟩
    | uaf u => exact ⟨ih, ic⟩
    | ub => exact h2.elim

end Verif.Sch
