import Verif.WeakMutexStep

/-!
# The mutexes under weak memory: C82
-/

namespace Verif.WeakMutex

/-! ## Specification -/

/-- How often fiber `f` has the mutex, after one more observation. -/
def after (f : Fid) (n : Nat) : Obs → Nat
  | .acquired g => if g = f then n + 1 else n
  | .released g => if g = f then n - 1 else n
  | _ => n

/-- How often fiber `f` has the mutex, judging from the calls that returned. -/
def holds (f : Fid) (tr : List Obs) : Nat := tr.foldl (after f) 0

/-- What was done to data while having the mutex is visible to all that have it later. -/
def Visible (tr : List Obs) : Prop := ∀ f x w, isData x → Obs.acc f x w true ∉ tr

/-- No access to the user's data or to the variables of the mutex is a data race. -/
def RaceFree (tr : List Obs) : Prop := ∀ f x w, Obs.acc f x w true ∉ tr

/-! ## Proofs -/

theorem holds_append (f : Fid) (t1 t2 : List Obs) : holds f (t1 ++ t2) = t2.foldl (after f) (holds f t1) := by
  simp [holds]

theorem inv_init {q : Prop} (recur : Bool) : Inv q (init recur) where
  lk := Lk.init.congr (by simp [init, Pc.inside])
  dat := by simp [init]
  plc := by simp [init, Place, State.has]
  nob := by simp [init]
  qui := by simp [init, Pc.tries]

theorem reach_inv {q : Prop} {recur : Bool} {s : State} {tr : List Obs} (h : Reach step (init recur) s tr) :
    (q → ∀ f, Obs.called f .tryLock ∉ tr) → Inv q s ∧ Shows q tr := by
  refine Reach.inv (fun s tr => (q → ∀ f, Obs.called f .tryLock ∉ tr) → Inv q s ∧ Shows q tr) ?_ ?_ h
  · intro _; exact ⟨inv_init recur, Shows.nil⟩
  · intro s tr e s' o _ hi hs hq
    obtain ⟨h1, h2⟩ := hi fun h f hm => hq h f (by simp [hm])
    obtain ⟨h3, h4⟩ := inv_step h1 (fun h f hm => hq h f (by simp [hm])) hs
    refine ⟨h3, fun f x w hm => ?_⟩
    rcases List.mem_append.1 hm with h | h
    · exact h2 f x w h
    · exact h4 f x w h

/-- The count of the machine is that of the history. -/
theorem held_eq {recur : Bool} {s : State} {tr : List Obs} (h : Reach step (init recur) s tr) (f : Fid) : s.held f = holds f tr := by
  refine Reach.inv (fun s tr => s.held f = holds f tr) rfl ?_ h
  intro s tr e s' o _ hi hs
  rw [holds_append, ← hi]
  cases e with
  | spin g t =>
    simp only [step] at hs
    repeat' split at hs
    all_goals first | (cases hs; done) | (cases hs; rfl)
  | run g =>
    simp only [step] at hs
    repeat' split at hs
    all_goals first
      | (cases hs; done)
      | (cases hs; rfl)
      | (cases hs
         simp only [State.acc, List.foldl_append, List.foldl_cons, List.foldl_nil, after, upd_apply]
         by_cases e : f = g
         · simp [e]
         · simp [e, Ne.symm e])
  | release g t =>
    simp only [step] at hs
    repeat' split at hs
    all_goals first
      | (cases hs; done)
      | (cases hs; rfl)
      | (cases hs
         simp only [List.foldl_cons, List.foldl_nil, after, upd_apply]
         by_cases e : f = g
         · simp [e]
         · simp [e, Ne.symm e])
  | use g x =>
    simp only [step] at hs
    split at hs
    · cases hs; rfl
    · cases hs
  | call g k => simp only [step] at hs; split at hs <;> first | (cases hs; done) | (cases hs; rfl)
  | resume g => simp only [step] at hs; split at hs <;> first | (cases hs; done) | (cases hs; rfl)
  | expire g => simp only [step] at hs; split at hs <;> first | (cases hs; done) | (cases hs; rfl)
  | late g => simp only [step] at hs; split at hs <;> first | (cases hs; done) | (cases hs; rfl)

/-- Who has the mutex is in `owner_`, or has the spinlock and is about to return from `unlock()`. -/
theorem has_of_held {q : Prop} {s : State} (hi : Inv q s) {f : Fid} (h : 0 < s.held f) :
    s.owner = some f ∨ (s.owner ≠ some f ∧ (s.pc f = .note ∨ s.pc f = .rel .unlocked)) := by
  have hp := hi.plc f
  by_cases ho : s.owner = some f
  · exact .inl ho
  · refine .inr ⟨ho, ?_⟩
    have hh : s.has f = false := by simp [State.has, ho]
    rw [hh] at hp
    unfold Place at hp
    split at hp <;> simp_all
    all_goals omega

theorem nobody_of {q : Prop} {s : State} (hi : Inv q s) (hq : ∀ f, s.pc f = .rel .unlocked → s.owner = none ∨ s.owner = some f) {f g : Fid}
    (h1 : 0 < s.held f) (h2 : 0 < s.held g) : f = g := by
  have key : ∀ f g, 0 < s.held f → s.owner = some g → s.owner = some f := by
    intro f g h1 h2
    rcases has_of_held hi h1 with h | ⟨h, h3 | h3⟩
    · exact h
    · rw [hi.nob f (by rw [h3]; rfl)] at h2; cases h2
    · rcases hq f h3 with h4 | h4
      · rw [h4] at h2; cases h2
      · exact h4
  rcases has_of_held hi h1 with h | ⟨h, h3⟩
  · have := key g f h2 h; rw [h] at this; exact Option.some.inj this
  · rcases has_of_held hi h2 with h' | ⟨h', h3'⟩
    · have := key f g h1 h'; rw [h'] at this; exact (Option.some.inj this).symm
    · refine hi.lk.one f g ?_ ?_
      · rcases h3 with h3 | h3 <;> rw [h3] <;> rfl
      · rcases h3' with h3' | h3' <;> rw [h3'] <;> rfl

/-- What the places of other fibers are after a step, and who is in `owner_`. -/
theorem step_other {s s' : State} {e : Event} {o : List Obs} (hs : step s e = some (s', o)) :
    (s'.owner = s.owner ∧ ∀ f, s'.pc f = .rel .unlocked → s.pc f = .rel .unlocked ∨ s.pc f = .note ∨ s.pc f = .less) ∨
    ∃ g, (s.pc g).inside = true ∧ ∀ f, s'.pc f = .rel .unlocked → f ≠ g ∧ s.pc f = .rel .unlocked := by
  -- fiber `g` moves to another place
  have mv : ∀ (g : Fid) (p : Pc), (p = .rel .unlocked → s.pc g = .note ∨ s.pc g = .less) → ∀ f, upd s.pc g p f = .rel .unlocked →
      s.pc f = .rel .unlocked ∨ s.pc f = .note ∨ s.pc f = .less := by
    intro g p hp f hf
    rw [upd_apply] at hf
    split at hf
    · rename_i e; subst e; exact .inr (hp hf)
    · exact .inl hf
  have mv' : ∀ (g : Fid) (p : Pc), p ≠ .rel .unlocked → ∀ f, upd s.pc g p f = .rel .unlocked → f ≠ g ∧ s.pc f = .rel .unlocked := by
    intro g p hp f hf
    rw [upd_apply] at hf
    split at hf
    · exact absurd hf hp
    · rename_i e; exact ⟨e, hf⟩
  cases e with
  | spin g t =>
    simp only [step] at hs
    repeat' split at hs
    all_goals first
      | (cases hs; done)
      | (cases hs; exact .inl ⟨rfl, mv g _ (by simp)⟩)
      | (cases hs; exact .inl ⟨rfl, fun _ h => .inl h⟩)
  | run g =>
    simp only [step] at hs
    split at hs
    · cases hs
      refine .inl ⟨rfl, mv g _ ?_⟩
      rename_i k _
      intro h
      exfalso; revert h
      cases k <;> simp only [decide_] <;> (repeat' split) <;> simp
    · rename_i k hp
      cases hs
      refine .inr ⟨g, by rw [hp]; rfl, mv' g _ ?_⟩
      split
      · simp
      · cases k <;> simp [gotIt]
    · rename_i k _ hp
      cases hs
      refine .inl ⟨rfl, mv g _ ?_⟩
      cases k <;> simp [gotIt]
    · rename_i hp
      cases hs
      exact .inl ⟨rfl, mv g _ fun _ => .inr hp⟩
    · rename_i hp
      cases hs
      exact .inr ⟨g, by rw [hp]; rfl, mv' g _ (by simp)⟩
    · rename_i hp
      cases hs
      exact .inl ⟨rfl, mv g _ fun _ => .inl hp⟩
    · cases hs; exact .inl ⟨rfl, mv g _ (by simp)⟩
    · cases hs; exact .inl ⟨rfl, mv g _ (by simp)⟩
    · split at hs <;> cases hs <;> exact .inl ⟨rfl, mv g _ (by simp)⟩
    · cases hs
  | release g t =>
    simp only [step] at hs
    repeat' split at hs
    all_goals first
      | (cases hs; done)
      | (cases hs; exact .inl ⟨rfl, mv g _ (by simp)⟩)
  | use g x =>
    simp only [step] at hs
    split at hs
    · cases hs; exact .inl ⟨rfl, mv g _ (by simp)⟩
    · cases hs
  | call g k => simp only [step] at hs; split at hs <;> first | (cases hs; done) | (cases hs; exact .inl ⟨rfl, mv g _ (by simp)⟩)
  | resume g => simp only [step] at hs; split at hs <;> first | (cases hs; done) | (cases hs; exact .inl ⟨rfl, mv g _ (by simp)⟩)
  | expire g => simp only [step] at hs; split at hs <;> first | (cases hs; done) | (cases hs; exact .inl ⟨rfl, mv g _ (by simp)⟩)
  | late g => simp only [step] at hs; split at hs <;> first | (cases hs; done) | (cases hs; exact .inl ⟨rfl, mv g _ (by simp)⟩)

theorem unlocked_owner {recur : Bool} {s : State} {tr : List Obs} (h : Reach step (init recur) s tr) :
    ∀ f, s.pc f = .rel .unlocked → s.owner = none ∨ s.owner = some f := by
  refine Reach.inv (fun s _ => ∀ f, s.pc f = .rel .unlocked → s.owner = none ∨ s.owner = some f) (by simp [init]) ?_ h
  intro s tr e s' o hr hi hs f hf
  have hin := (reach_inv (q := False) hr (fun h => h.elim)).1
  rcases step_other hs with ⟨h1, h2⟩ | ⟨g, h1, h2⟩
  · rw [h1]
    rcases h2 f hf with h3 | h3 | h3
    · exact hi f h3
    · exact .inl (hin.nob f (by rw [h3]; rfl))
    · have := hin.plc f
      rw [h3] at this
      right; simpa [State.has] using this.2.1
  · obtain ⟨h3, h4⟩ := h2 f hf
    exact absurd (hin.lk.one f g (by rw [h4]; rfl) h1) h3

/-- **C82, mutual exclusion.** For all four mutexes, every number of fibers and whatever values the memory model lets them read:
no two fibers have the mutex. -/
theorem exclusive {recur : Bool} {s : State} {tr : List Obs} (h : Reach step (init recur) s tr) {f g : Fid}
    (hf : 0 < holds f tr) (hg : 0 < holds g tr) : f = g := by
  rw [← held_eq h] at hf hg
  exact nobody_of (reach_inv (q := False) h (fun h => h.elim)).1 (unlocked_owner h) hf hg

/-- **C82, visibility.** For all four mutexes: whatever a fiber did to data while it had the mutex is visible to every fiber that has
it later, however it got it (`lock`, `try_lock`, `try_lock_for`, `try_lock_until`). -/
theorem visible {recur : Bool} {s : State} {tr : List Obs} (h : Reach step (init recur) s tr) : Visible tr :=
  fun f x w hx hm => ((reach_inv (q := False) h (fun h => h.elim)).2 f x w hm).1 hx

/-- A fiber that has the mutex, and is in no call, may use data. (So `visible` speaks of all that have the mutex.) -/
theorem may_use {recur : Bool} {s : State} {tr : List Obs} (h : Reach step (init recur) s tr) {f : Fid} (hf : 0 < holds f tr)
    (ho : s.pc f = .out) (x : Nat) (hx : isData x) : ∃ s' race, step s (.use f x) = some (s', [.acc f x true race]) := by
  rw [← held_eq h] at hf
  exact ⟨_, _, by simp only [step]; rw [if_pos ⟨ho, hf, hx⟩]; rfl⟩

/-- **C82 (what holds), data races.** As long as nobody calls `try_lock()`, the mutex is free of data races.

Missing for C82: `try_lock()` (`try_lock_races`). -/
theorem race_free_partial {recur : Bool} {s : State} {tr : List Obs} (h : Reach step (init recur) s tr)
    (hq : ∀ f, Obs.called f .tryLock ∉ tr) : RaceFree tr :=
  fun f x w hm => ((reach_inv (q := True) h (fun _ => hq)).2 f x w hm).2 trivial

/-! ### Refutation -/

/-- Fiber 1 has the mutex; fiber 2 tries to get it and has released the spinlock; fiber 1 unlocks. -/
def raceRun : List Event :=
  [.call 1 .lock, .spin 1 0, .run 1, .run 1, .release 1 2, .call 2 .tryLock, .spin 2 2, .run 2, .release 2 4,
   .call 1 .unlock, .spin 1 4, .run 1, .run 1, .run 2]

/-- **C82 is false of the code.** `mutex::try_lock()` and `timed_mutex::try_lock()` read `owner_` after they have released the spinlock.
Here fiber 1 sets `owner_ = nullptr` in `unlock()`; the next access is the reading by fiber 2, which is not ordered with it: undefined
behaviour. -/
theorem try_lock_races : ∃ s tr, Reach step (init false) s tr ∧
    ∃ t1, tr = t1 ++ [.acc 1 OWNER true false, .acc 2 OWNER false true, .failed 2] :=
  ⟨_, _, reach_of_exec (es := raceRun) rfl, [.called 1 .lock, .acc 1 OWNER false false, .acc 1 OWNER true false, .acquired 1,
    .called 2 .tryLock, .acc 2 OWNER false false, .called 1 .unlock, .acc 1 OWNER false false], by decide⟩

/-- The same in `recursive_mutex` and `recursive_timed_mutex`. -/
def raceRunRec : List Event :=
  [.call 1 .lock, .spin 1 0, .run 1, .run 1, .run 1, .release 1 2, .call 2 .tryLock, .spin 2 2, .run 2, .release 2 4,
   .call 1 .unlock, .spin 1 4, .run 1, .run 1, .run 1, .run 2]

theorem try_lock_races_rec : ∃ s tr, Reach step (init true) s tr ∧
    ∃ t1, tr = t1 ++ [.acc 1 OWNER true false, .acc 2 OWNER false true, .failed 2] :=
  ⟨_, _, reach_of_exec (es := raceRunRec) rfl, [.called 1 .lock, .acc 1 OWNER false false, .acc 1 OWNER true false,
    .acc 1 COUNT true false, .acquired 1, .called 2 .tryLock, .acc 2 OWNER false false, .called 1 .unlock, .acc 1 OWNER false false,
    .acc 1 COUNT true false], by decide⟩

/-! ### Examples -/

/-- Fiber 1 locks, uses data 7 and unlocks; fiber 2, which has waited, gets the mutex and uses the data. -/
def demo : List Event :=
  [.call 1 .lock, .spin 1 0, .run 1, .run 1, .release 1 2, .use 1 7,
   .call 2 .lock, .spin 2 2, .run 2, .run 2, .release 2 4,
   .call 1 .unlock, .spin 1 4, .run 1, .run 1, .run 1, .release 1 6,
   .resume 2, .spin 2 6, .run 2, .run 2, .release 2 8, .use 2 7]

theorem demo_reach : ∃ s tr, Reach step (init false) s tr ∧ Obs.acc 1 7 true false ∈ tr ∧ Obs.acc 2 7 true false ∈ tr ∧
    holds 2 tr = 1 ∧ holds 1 tr = 0 ∧ ∀ f, Obs.called f .tryLock ∉ tr :=
  ⟨_, _, reach_of_exec (es := demo) rfl, by decide, by decide, by decide, by decide, by simp⟩

/-- Non-vacuity of `visible`, `exclusive` and `race_free_partial`. -/
example : ∃ s tr, Reach step (init false) s tr ∧ Visible tr ∧ RaceFree tr ∧ 0 < holds 2 tr := by
  obtain ⟨s, tr, h, _, _, h1, _, h2⟩ := demo_reach
  exact ⟨s, tr, h, visible h, race_free_partial h h2, by omega⟩

/-- Recursion and a timeout: fiber 1 has the recursive mutex twice; the wait of fiber 2 times out. -/
def demoRec : List Event :=
  [.call 1 .lock, .spin 1 0, .run 1, .run 1, .run 1, .release 1 2, .call 1 .tryLock, .spin 1 2, .run 1, .run 1, .release 1 4, .run 1,
   .call 2 .lockUntil, .spin 2 4, .run 2, .run 2, .release 2 6, .expire 2, .spin 2 6, .run 2, .release 2 8, .use 1 9]

example : ∃ s tr, Reach step (init true) s tr ∧ holds 1 tr = 2 ∧ holds 2 tr = 0 ∧ Obs.failed 2 ∈ tr ∧ Obs.acc 1 9 true false ∈ tr :=
  ⟨_, _, reach_of_exec (es := demoRec) rfl, by decide, by decide, by decide, by decide⟩

end Verif.WeakMutex
