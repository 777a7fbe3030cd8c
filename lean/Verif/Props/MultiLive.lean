import Verif.Props.Multi

/-!
# `shared_work` and `work_stealing`: starvation, shutdown, termination of `pick_next` (C68, C47, C49)
-/

namespace Verif.Multi

open Verif.Sch (Cx Tid set set_apply set_same set_other)

variable {st : Bool} {n : Nat} {s s' : State} {tr : List Obs} {t u v : Tid} {x : Cx}

/-! ## No starvation (C68) -/

theorem queue_since {a : State} {l : Spec} (hi : Inv a l) (hm : a.stealing = true) (h : Reach step a s tr) :
    a.loc v ++ readyQ v tr = takeQ v tr ++ s.loc v ∧ Inv s (tr.foldl after l) ∧ s.stealing = true := by
  induction h with
  | refl => exact ⟨by simp [readyQ, takeQ], hi, hm⟩
  | tail e h hs ih =>
    have h1 := step_queue (v := v) ih.2.1 ih.2.2 hs
    refine ⟨?_, ?_, by rw [step_mode hs]; exact ih.2.2⟩
    · rw [readyQ_append, takeQ_append, ← List.append_assoc, ih.1, List.append_assoc, h1, List.append_assoc]
    · rw [List.foldl_append]; exact (inv_step ih.2.1 hs).2

/-- `work_stealing`: a queued fiber is among the next `k + 1` fibers taken from its queue, where `k` is the number of
fibers before it. -/
theorem stealing_no_starvation {a : State} {tr₀ : List Obs} (h0 : Reach step (init true n) a tr₀) (h : Reach step a s tr) {p q : List Cx}
    (hx : a.loc v = p ++ x :: q) (hn : p.length < (takeQ v tr).length) : x ∈ takeQ v tr := by
  have h1 := (queue_since (v := v) (reach_inv h0).2 (reach_mode h0) h).1
  have h2 : (takeQ v tr)[p.length]? = some x := by
    have : (takeQ v tr ++ s.loc v)[p.length]? = some x := by rw [← h1, hx]; simp
    rwa [List.getElem?_append_left hn] at this
  exact List.mem_of_getElem? h2

/-- Two workers that yield to each other. -/
structure Loop (s : State) : Prop where
  mode : s.stealing = false
  run : s.run 0 = some (.work 0)
  pc : s.pc 0 = .user
  shared : s.shared = [.work 1]
  loc : s.loc 0 = [.disp 0, .main 0]

/-- Worker `a` yields and worker `b` gets its turn. -/
theorem turn_exec {a b : Nat} (h1 : s.stealing = false) (h2 : s.run 0 = some (.work a)) (h3 : s.pc 0 = .user) (h4 : s.shared = [.work b])
    (h5 : s.loc 0 = [.disp 0, .main 0]) :
    ∃ s', Reach step s s' [.take 0 0 (.work b), .run 0 (.work b), .ready 0 (.work a)] ∧
      s'.stealing = false ∧ s'.run 0 = some (.work b) ∧ s'.pc 0 = .user ∧ s'.shared = [.work a] ∧ s'.loc 0 = [.disp 0, .main 0] := by
  have e1 : step s (.call 0 .yield) = some ({ s with pc := upd s.pc 0 (.pick .yield) }, []) := by simp [step, h2, h3, mayCall]
  have r1 := Reach.tail _ Reach.refl e1
  generalize hs1 : ({ s with pc := upd s.pc 0 (.pick .yield) } : State) = s1 at r1
  have p1 : s1.stealing = false ∧ s1.run 0 = some (.work a) ∧ s1.pc 0 = .pick .yield ∧ s1.shared = [.work b] ∧ s1.loc 0 = [.disp 0, .main 0] := by
    subst hs1; simp [*]
  clear hs1 h1 h2 h3 h4 h5 e1
  obtain ⟨h1, h2, h3, h4, h5⟩ := p1
  have e2 : step s1 (.go 0) = some ({ s1 with shared := [], pc := upd s1.pc 0 (.got .yield (.work b)) }, [.take 0 0 (.work b)]) := by
    simp [step, go, h1, h3, h4]
  have r2 := Reach.tail _ r1 e2
  generalize hs2 : ({ s1 with shared := [], pc := upd s1.pc 0 (.got .yield (.work b)) } : State) = s2 at r2
  have p2 : s2.stealing = false ∧ s2.run 0 = some (.work a) ∧ s2.pc 0 = .got .yield (.work b) ∧ s2.shared = [] ∧ s2.loc 0 = [.disp 0, .main 0] := by
    subst hs2; simp [*]
  clear hs2 h1 h2 h3 h4 h5 e2
  obtain ⟨h1, h2, h3, h4, h5⟩ := p2
  have e3 : step s2 (.go 0) = some ({ s2 with wq := upd s2.wq 0 (s2.wq 0 ++ [.work b]), run := upd s2.run 0 (some (.work b)), pc := upd s2.pc 0 (.put .yield (.work a)) },
      [.run 0 (.work b)]) := by simp [step, go, h2, h3, pinned]
  have r3 := Reach.tail _ r2 e3
  generalize hs3 : ({ s2 with wq := upd s2.wq 0 (s2.wq 0 ++ [.work b]), run := upd s2.run 0 (some (.work b)), pc := upd s2.pc 0 (.put .yield (.work a)) } : State) = s3 at r3
  have p3 : s3.stealing = false ∧ s3.run 0 = some (.work b) ∧ s3.pc 0 = .put .yield (.work a) ∧ s3.shared = [] ∧ s3.loc 0 = [.disp 0, .main 0] := by
    subst hs3; simp [*]
  clear hs3 h1 h2 h3 h4 h5 e3
  obtain ⟨h1, h2, h3, h4, h5⟩ := p3
  have e4 : step s3 (.go 0) = some ({ s3 with pc := upd s3.pc 0 (.aw (.work a)) }, []) := by simp [step, go, h3]
  have r4 := Reach.tail _ r3 e4
  generalize hs4 : ({ s3 with pc := upd s3.pc 0 (.aw (.work a)) } : State) = s4 at r4
  have p4 : s4.stealing = false ∧ s4.run 0 = some (.work b) ∧ s4.pc 0 = .aw (.work a) ∧ s4.shared = [] ∧ s4.loc 0 = [.disp 0, .main 0] := by
    subst hs4; simp [*]
  clear hs4 h1 h2 h3 h4 h5 e4
  obtain ⟨h1, h2, h3, h4, h5⟩ := p4
  have e5 : step s4 (.go 0) = some ({ s4 with wq := upd s4.wq 0 ((s4.wq 0).erase (.work a)), pc := upd s4.pc 0 (.push (.work a)) }, []) := by
    simp [step, go, h3, pinned]
  have r5 := Reach.tail _ r4 e5
  generalize hs5 : ({ s4 with wq := upd s4.wq 0 ((s4.wq 0).erase (.work a)), pc := upd s4.pc 0 (.push (.work a)) } : State) = s5 at r5
  have p5 : s5.stealing = false ∧ s5.run 0 = some (.work b) ∧ s5.pc 0 = .push (.work a) ∧ s5.shared = [] ∧ s5.loc 0 = [.disp 0, .main 0] := by
    subst hs5; simp [*]
  clear hs5 h1 h2 h3 h4 h5 e5
  obtain ⟨h1, h2, h3, h4, h5⟩ := p5
  have e6 : step s5 (.go 0) = some ({ s5 with shared := [.work a], pc := upd s5.pc 0 .user }, [.ready 0 (.work a)]) := by simp [step, go, h1, h3, h4]
  have r6 := Reach.tail _ r5 e6
  exact ⟨_, r6, h1, h2, by simp, rfl, h5⟩

def lapTrace : List Obs :=
  [.take 0 0 (.work 1), .run 0 (.work 1), .ready 0 (.work 0), .take 0 0 (.work 0), .run 0 (.work 0), .ready 0 (.work 1)]

theorem loop_lap (h : Loop s) : ∃ s', Reach step s s' lapTrace ∧ Loop s' := by
  obtain ⟨h1, h2, h3, h4, h5⟩ := h
  obtain ⟨s1, r1, h1, h2, h3, h4, h5⟩ := turn_exec h1 h2 h3 h4 h5
  obtain ⟨s2, r2, h1, h2, h3, h4, h5⟩ := turn_exec h1 h2 h3 h4 h5
  exact ⟨s2, r1.trans r2, ⟨h1, h2, h3, h4, h5⟩⟩

def startS : List Event :=
  [.thread 0, .go 0, .spawn 0 0 false, .go 0, .go 0, .spawn 0 1 false, .go 0, .go 0, .call 0 .yield, .go 0, .go 0, .go 0, .go 0]

def startSTrace : List Obs :=
  [.started 0, .ready 0 (.disp 0), .spawned 0 (.work 0), .ready 0 (.work 0), .spawned 0 (.work 1), .ready 0 (.work 1),
    .take 0 0 (.work 0), .run 0 (.work 0), .ready 0 (.main 0)]

/-- A concrete run, and something about the state it leads to. -/
theorem run_to {α : Type} {es : List Event} {a : State} {f : State → α} {v : α} (h : (exec step a es).map (fun r => (f r.1, r.2)) = some (v, tr)) :
    ∃ s, Reach step a s tr ∧ f s = v := by
  simp only [Option.map_eq_some_iff, Prod.mk.injEq] at h
  obtain ⟨⟨s, tr'⟩, h1, h2, h3⟩ := h
  simp only at h2 h3
  subst h3
  exact ⟨s, reach_of_exec h1, h2⟩

set_option synthInstance.maxSize 2000 in
set_option synthInstance.maxHeartbeats 200000 in
theorem laps (k : Nat) : ∃ s tr, Reach step (init false 1) s (startSTrace ++ tr) ∧ Loop s ∧
    takes (.main 0) tr = 0 ∧ takes (.disp 0) tr = 0 ∧ runs (.work 0) tr = k := by
  induction k with
  | zero =>
    obtain ⟨s, h1, h2⟩ := run_to (a := init false 1) (es := startS) (f := fun s => (s.stealing, s.run 0, s.pc 0, s.shared, s.loc 0)) (tr := startSTrace)
      (v := (false, some (.work 0), .user, [.work 1], [.disp 0, .main 0])) (by decide +kernel)
    simp only [Prod.mk.injEq] at h2
    exact ⟨s, [], by simpa using h1, ⟨h2.1, h2.2.1, h2.2.2.1, h2.2.2.2.1, h2.2.2.2.2⟩, rfl, rfl, rfl⟩
  | succ k ih =>
    obtain ⟨s, tr, h1, h2, h3, h4, h5⟩ := ih
    obtain ⟨s', h6, h7⟩ := loop_lap h2
    refine ⟨s', tr ++ lapTrace, ?_, h7, ?_, ?_, ?_⟩
    · rw [← List.append_assoc]; exact h1.trans h6
    · simp only [takes, List.countP_append] at h3 ⊢; rw [h3]; rfl
    · simp only [takes, List.countP_append] at h4 ⊢; rw [h4]; rfl
    · simp only [runs, List.countP_append] at h5 ⊢; rw [h5]; rfl

/-- `shared_work` violates it: while two workers yield to each other, the main fiber and the dispatcher (hence every
sleeping fiber and every fiber woken from another thread) wait for ever: each is ready, and after any number of turns of
the workers has not been picked. -/
theorem shared_starves (k : Nat) : ∃ s tr₁ tr₂, Reach step (init false 1) s (tr₁ ++ tr₂) ∧
    (∃ t, .ready t (.main 0) ∈ tr₁) ∧ takes (.main 0) (tr₁ ++ tr₂) = 0 ∧ takes (.disp 0) (tr₁ ++ tr₂) = 0 ∧ k ≤ runs (.work 0) tr₂ := by
  obtain ⟨s, tr, h1, _, h3, h4, h5⟩ := laps k
  refine ⟨s, startSTrace, tr, h1, ⟨0, by decide⟩, ?_, ?_, by omega⟩
  · simp only [takes, List.countP_append] at h3 ⊢; rw [h3]; rfl
  · simp only [takes, List.countP_append] at h4 ⊢; rw [h4]; rfl

/-! ## Shutdown (C47) -/

/-- What holds of C47: a thread ends only if none of its fibers is blocked, and after its main function has returned. -/
theorem ended_partial {a b : List Obs} (h : Reach step (init st n) s (a ++ .ended t :: b)) :
    (replay a).closing t = true ∧ ∀ k, (replay a).status (.work k) ≠ .blocked t := by
  have h1 := Reach.ok_at h
  exact ⟨h1.2.2.1, fun k => h1.2.2.2 _ rfl⟩

/-- Nothing happens any more. -/
def Over (s : State) : Prop := ∀ s' tr, Reach step s s' tr → tr = []

theorem step_size {e : Event} {o : List Obs} (hs : step s e = some (s', o)) : s'.size = s.size := by
  cases e <;> simp only [step, go, nothing] at hs <;> grind

theorem step_late {e : Event} {o : List Obs} (hs : step s e = some (s', o)) (h : ∀ t, s.size ≤ t → s.run t = none) (ht : s.size ≤ t) :
    s'.run t = none := by
  have h0 := h t ht
  cases e with
  | go u =>
    simp only [step, go, nothing] at hs
    by_cases hu : t = u
    · subst hu
      cases hp : s.pc t <;> simp only [hp, h0] at hs <;> grind [upd_apply']
    · cases hp : s.pc u <;> simp only [hp] at hs <;> (repeat' split at hs) <;> 
        simp only [Option.some.injEq, Prod.mk.injEq, reduceCtorEq, and_true, and_false] at hs <;> obtain ⟨rfl, rfl⟩ := hs <;> simp [hu, h0]
  | _ u =>
    simp only [step, nothing] at hs
    (repeat' split at hs) <;> simp only [Option.some.injEq, Prod.mk.injEq, reduceCtorEq, and_true, and_false] at hs <;> obtain ⟨rfl, rfl⟩ := hs <;>
      simp only [upd_apply'] <;> grind

theorem reach_late (h : Reach step (init st n) s tr) : s.size = n ∧ ∀ t, n ≤ t → s.run t = none := by
  induction h with
  | refl => exact ⟨rfl, fun _ _ => rfl⟩
  | tail e _ hs ih =>
    exact ⟨(step_size hs).trans ih.1, fun t ht => step_late hs (by rw [ih.1]; exact ih.2) (by rw [ih.1]; exact ht)⟩

theorem over (h : Reach step (init st n) s tr) (h1 : ∀ t, t < n → s.run t = none ∧ s.st (.main t) ≠ .unborn) : Over s := by
  have hl := reach_late h
  have hr : ∀ t, s.run t = none := fun t => by
    by_cases ht : t < n
    · exact (h1 t ht).1
    · exact hl.2 t (Nat.le_of_not_lt ht)
  have hp : ∀ t, s.pc t = .user := fun t => (reach_inv h).2.dead t (hr t)
  have h0 : ∀ e, step s e = none := by
    intro e
    cases e with
    | thread t => simp only [step]; rw [if_neg]; rintro ⟨ha, hb⟩; exact (h1 t (hl.1 ▸ hb)).2 ha
    | spawn t n d => simp [step, hr]
    | wake t x => simp [step, hr]
    | call t r => simp [step, hr]
    | disp t => simp [step, hr]
    | go t => simp [step, go, hp]
    | draw t id => simp [step, hp]
  intro s' tr h
  obtain ⟨es, he⟩ := exec_of_reach h
  cases es with
  | nil => simp only [exec, Option.some.injEq, Prod.mk.injEq] at he; exact he.2.symm
  | cons e es => simp [exec, h0] at he

def quitS : List Event :=
  [.thread 0, .go 0, .spawn 0 0 false, .go 0, .go 0, .call 0 .exit, .go 0, .go 0, .go 0,
    .call 0 .yield, .go 0, .go 0, .go 0, .go 0, .go 0, .go 0, .disp 0]

def quitSTrace : List Obs :=
  [.started 0, .ready 0 (.disp 0), .spawned 0 (.work 0), .ready 0 (.work 0), .take 0 0 (.work 0), .run 0 (.work 0), .closing 0,
    .take 0 0 (.disp 0), .run 0 (.disp 0), .ready 0 (.work 0), .ended 0]

/-- C47 fails for `shared_work`: the main function has returned, the last fiber yields, the thread switches to its
dispatcher, puts the fiber into the shared queue (which detaches it from the thread) and ends. The fiber is ready, but
never runs again. -/
theorem shared_shutdown_loses : ∃ s tr, Reach step (init false 1) s tr ∧ .ended 0 ∈ tr ∧ s.st (.work 0) = .live ∧
    .work 0 ∈ s.shared ∧ Over s := by
  obtain ⟨s, h1, h2⟩ := run_to (a := init false 1) (es := quitS) (f := fun s => (s.st (.work 0), s.shared, s.run 0, s.st (.main 0))) (tr := quitSTrace)
    (v := (.live, [.work 0], none, .done)) (by decide +kernel)
  simp only [Prod.mk.injEq] at h2
  obtain ⟨h2, h3, h4, h5⟩ := h2
  refine ⟨s, quitSTrace, h1, by decide, h2, by simp [h3], over h1 ?_⟩
  intro t ht
  have : t = 0 := by omega
  subst this
  exact ⟨h4, by simp [h5]⟩

def quitW : List Event :=
  [.thread 0, .go 0, .spawn 0 0 false, .go 0, .go 0, .call 0 .exit, .go 0, .go 0, .go 0, .disp 0]

def quitWTrace : List Obs :=
  [.started 0, .ready 0 (.disp 0), .spawned 0 (.work 0), .ready 0 (.work 0), .take 0 0 (.disp 0), .run 0 (.disp 0), .closing 0, .ended 0]

/-- C47 fails for `work_stealing`: the main function creates a fiber, detaches it and returns; the thread ends although
the fiber has never run. -/
theorem stealing_shutdown_loses : ∃ s tr, Reach step (init true 1) s tr ∧ .ended 0 ∈ tr ∧ s.st (.work 0) = .live ∧
    .work 0 ∈ s.loc 0 ∧ runs (.work 0) tr = 0 ∧ Over s := by
  obtain ⟨s, h1, h2⟩ := run_to (a := init true 1) (es := quitW) (f := fun s => (s.st (.work 0), s.loc 0, s.run 0, s.st (.main 0))) (tr := quitWTrace)
    (v := (.live, [.work 0], none, .done)) (by decide +kernel)
  simp only [Prod.mk.injEq] at h2
  obtain ⟨h2, h3, h4, h5⟩ := h2
  refine ⟨s, quitWTrace, h1, by decide, h2, by simp [h3], by decide, over h1 ?_⟩
  intro t ht
  have : t = 0 := by omega
  subst this
  exact ⟨h4, by simp [h5]⟩

/-! ## `pick_next` of `work_stealing` (C49) -/

/-- The thread is in the loop of `pick_next` that looks for a victim. -/
def stealingAt (s : State) (t : Tid) : Bool :=
  match s.pc t with
  | .steal _ _ => true
  | _ => false


/-- What thread 0 would need to return from `pick_next`: a number in `[0, thread_count)` that is not its own. -/
theorem alone_draw (hz : s.size = 1) (hp : stealingAt s 0 = true) {id : Nat} {o : List Obs} (hs : step s (.draw 0 id) = some (s', o)) :
    s'.size = 1 ∧ stealingAt s' 0 = true ∧ s'.run = s.run ∧ s'.st = s.st ∧ o = [] := by
  simp only [step] at hs
  split at hs
  · rename_i r c hp
    split at hs
    · rename_i hid
      have : id = 0 := by have : id < 1 := hz ▸ hid; omega
      subst this
      simp only [if_true, Option.some.injEq, Prod.mk.injEq] at hs
      obtain ⟨rfl, rfl⟩ := hs
      exact ⟨hz, by simp [stealingAt], rfl, rfl, rfl⟩
    · simp at hs
  · simp at hs

theorem alone_step (h : Reach step (init st 1) s tr) (hp : stealingAt s 0 = true) {e : Event} {o : List Obs} (hs : step s e = some (s', o)) :
    stealingAt s' 0 = true ∧ o = [] := by
  have hl := reach_late h
  have hi := (reach_inv h).2
  have hr : ∀ t, t ≠ 0 → s.run t = none := fun t ht => hl.2 t (by have : t ≠ 0 := ht; exact Nat.pos_of_ne_zero this)
  have hu : ∀ t, t ≠ 0 → s.pc t = .user := fun t ht => hi.dead t (hr t ht)
  have hne : s.pc 0 ≠ .user ∧ s.pc 0 ≠ .idle := by
    constructor <;> (intro h; simp [stealingAt, h] at hp)
  cases e with
  | thread t =>
    simp only [step, hl.1] at hs
    split at hs
    · rename_i hc
      have : t = 0 := by have : t < 1 := hc.2; exact Nat.lt_one_iff.1 this
      subst this
      exact absurd (hi.dead 0 (hi.mb 0 hc.1).1) hne.1
    · simp at hs
  | draw t id =>
    by_cases ht : t = 0
    · subst ht
      have := alone_draw hl.1 hp hs
      exact ⟨this.2.1, this.2.2.2.2⟩
    · simp [step, hu t ht] at hs
  | go t =>
    by_cases ht : t = 0
    · subst ht
      simp only [stealingAt] at hp
      split at hp
      · rename_i hq; simp [step, go, hq] at hs
      · simp at hp
    · simp [step, go, hu t ht] at hs
  | disp t =>
    by_cases ht : t = 0
    · subst ht; simp [step, hne] at hs
    · simp [step, hr t ht] at hs
  | spawn t k d =>
    by_cases ht : t = 0
    · subst ht; simp only [step] at hs; grind
    · simp [step, hr t ht] at hs
  | wake t y =>
    by_cases ht : t = 0
    · subst ht; simp only [step] at hs; grind
    · simp [step, hr t ht] at hs
  | call t r =>
    by_cases ht : t = 0
    · subst ht; simp only [step] at hs; grind
    · simp [step, hr t ht] at hs

/-- C49 fails for `thread_count = 1`: whatever the random numbers, once the only thread has found its own queue empty it
stays in `pick_next` for ever, and nothing else happens. -/
theorem alone_never_returns (h : Reach step (init st 1) s tr) (hp : stealingAt s 0 = true) {tr' : List Obs} (h' : Reach step s s' tr') :
    stealingAt s' 0 = true ∧ tr' = [] := by
  have h2 : stealingAt s' 0 = true ∧ tr' = [] ∧ Reach step (init st 1) s' tr := by
    induction h' with
    | refl => exact ⟨hp, rfl, h⟩
    | tail e _ hs ih =>
      have := alone_step ih.2.2 ih.1 hs
      refine ⟨this.1, by rw [ih.2.1, this.2]; rfl, ?_⟩
      have h3 := Reach.tail e ih.2.2 hs
      rwa [this.2, List.append_nil] at h3
  exact ⟨h2.1, h2.2.1⟩

/-- The draws of one thread. -/
def draws (t : Tid) (ids : List Nat) : List Event := ids.map (.draw t ·)

/-- The rest of C49, for two threads or more: as soon as at least `thread_count` numbers were drawn, `pick_next` returns
with the first one that is not the thread's own. So it fails to return only if all numbers from some point on are its
own. (Probability is not modelled.) -/
theorem pick_returns_partial {r : Why} {c id : Nat} {ids : List Nat} (hp : s.pc t = .steal r c) (hl : ∀ i ∈ ids, i < s.size) (hid : id < s.size)
    (hne : id ≠ t) (hn : s.size ≤ c + ids.length + 1) :
    ∃ p s' o, p <+: ids ++ [id] ∧ exec step s (draws t p) = some (s', o) ∧ stealingAt s' t = false := by
  induction ids generalizing s c with
  | nil =>
    have hc : ¬ c + 1 < s.size := by simp only [List.length_nil] at hn; omega
    refine ⟨[id], ?_⟩
    simp only [List.nil_append, List.prefix_refl, true_and, draws, List.map, exec, step, hp, if_pos hid, if_neg hne, if_neg hc]
    cases s.loc id with
    | nil => simp only [nothing]; split <;> exact ⟨_, _, rfl, by simp [stealingAt]⟩
    | cons y q =>
      cases hy : pinned y with
      | true => by_cases hr : r = .disp <;> simp [hy, nothing, hr, stealingAt]
      | false => simp [hy, stealingAt]
  | cons i ids ih =>
    have hi := hl i (List.mem_cons_self ..)
    have hnext : ∀ {s1 : State} {o}, step s (.draw t i) = some (s1, o) → stealingAt s1 t = false →
        ∃ p s' o, p <+: (i :: ids) ++ [id] ∧ exec step s (draws t p) = some (s', o) ∧ stealingAt s' t = false := by
      intro s1 o h1 h2
      exact ⟨[i], s1, o ++ [], by simp, by simp [draws, exec, h1], h2⟩
    have hstay : step s (.draw t i) = some ({ s with pc := upd s.pc t (.steal r (c + 1)) }, []) →
        ∃ p s' o, p <+: (i :: ids) ++ [id] ∧ exec step s (draws t p) = some (s', o) ∧ stealingAt s' t = false := by
      intro h1
      obtain ⟨p, s', o, h2, h3, h4⟩ := ih (s := { s with pc := upd s.pc t (.steal r (c + 1)) }) (c := c + 1) (by simp)
        (fun j hj => hl j (List.mem_cons_of_mem _ hj)) hid (by simp only [List.length_cons] at hn ⊢; omega)
      refine ⟨i :: p, s', [] ++ o, by simpa using h2, ?_, h4⟩
      simp only [draws, List.map, exec, h1]
      simp only [draws] at h3
      rw [h3]
    by_cases hit : i = t
    · exact hstay (by subst hit; simp [step, hp, hi])
    · cases hq : s.loc i with
      | nil =>
        by_cases hc : c + 1 < s.size
        · exact hstay (by simp [step, hp, hi, hit, hq, hc])
        · by_cases hr : r = .disp
          · exact hnext (s1 := { s with pc := upd s.pc t .idle }) (o := []) (by simp [step, hp, hi, hit, hq, hc, nothing, hr]) (by simp [stealingAt])
          · exact hnext (s1 := { s with pc := upd s.pc t .user }) (o := [.ub]) (by simp [step, hp, hi, hit, hq, hc, nothing, hr]) (by simp [stealingAt])
      | cons y q =>
        cases hy : pinned y with
        | true =>
          by_cases hc : c + 1 < s.size
          · exact hstay (by simp [step, hp, hi, hit, hq, hc, hy])
          · by_cases hr : r = .disp
            · exact hnext (s1 := { s with pc := upd s.pc t .idle }) (o := []) (by simp [step, hp, hi, hit, hq, hc, nothing, hr, hy]) (by simp [stealingAt])
            · exact hnext (s1 := { s with pc := upd s.pc t .user }) (o := [.ub]) (by simp [step, hp, hi, hit, hq, hc, nothing, hr, hy]) (by simp [stealingAt])
        | false =>
          exact hnext (s1 := { s with loc := upd s.loc i q, pc := upd s.pc t (.got r y) }) (o := [.take t i y]) (by simp [step, hp, hi, hit, hq, hy]) (by simp [stealingAt])

/-! ## Examples -/

/-- Two threads with `work_stealing`: thread 0 creates two fibers, thread 1 steals one and runs it, both finish. -/
def demoW : List Event :=
  [.thread 0, .go 0, .thread 1, .go 1, .spawn 0 0 false, .go 0, .go 0, .spawn 0 1 false, .go 0, .go 0,
    .call 0 .block, .go 0, .go 0, .go 0,                           -- thread 0: main blocks, the dispatcher runs
    .call 1 .block, .go 1, .go 1, .go 1, .disp 1, .go 1,           -- thread 1: nothing to do
    .draw 1 1, .draw 1 0, .go 1, .go 1, .go 1,                     -- thread 1 steals fiber 0 (its first number is its own)
    .disp 0, .go 0, .go 0, .go 0, .go 0,                           -- thread 0 runs fiber 1
    .call 1 .finish, .go 1, .go 1, .go 1, .call 0 .finish, .go 0, .go 0, .go 0, .wake 0 (.main 0), .go 0]

def demoWTrace : List Obs :=
  [.started 0, .ready 0 (.disp 0), .started 1, .ready 1 (.disp 1), .spawned 0 (.work 0), .ready 0 (.work 0), .spawned 0 (.work 1),
    .ready 0 (.work 1), .take 0 0 (.disp 0), .run 0 (.disp 0), .blocked 0 (.main 0), .take 1 1 (.disp 1), .run 1 (.disp 1),
    .blocked 1 (.main 1), .take 1 0 (.work 0), .run 1 (.work 0), .ready 1 (.disp 1), .take 0 0 (.work 1), .run 0 (.work 1),
    .ready 0 (.disp 0), .take 1 1 (.disp 1), .run 1 (.disp 1), .done 1 (.work 0), .take 0 0 (.disp 0), .run 0 (.disp 0),
    .done 0 (.work 1), .woken 0 (.main 0), .ready 0 (.main 0)]

theorem demoW_reach : ∃ s, Reach step (init true 2) s demoWTrace ∧ (s.run 0, s.run 1, s.loc 0, s.pc 1) = (some (.disp 0), some (.disp 1), [.main 0], .user) :=
  run_to (es := demoW) (f := fun s => (s.run 0, s.run 1, s.loc 0, s.pc 1)) (by decide +kernel)

-- `picked_once`, `stealing_fifo`: each worker became ready, was taken and ran once; the main fiber of thread 0 is still queued
example : ∃ s, Reach step (init true 2) s demoWTrace ∧ readies (.work 0) demoWTrace = 1 ∧ takes (.work 0) demoWTrace = 1 ∧
    runs (.work 0) demoWTrace = 1 ∧ readies (.main 0) demoWTrace = 1 ∧ takes (.main 0) demoWTrace = 0 ∧ .main 0 ∈ s.loc 0 ∧
    readyQ 0 demoWTrace = [.disp 0, .work 0, .work 1, .disp 0, .main 0] ∧ takeQ 0 demoWTrace = [.disp 0, .work 0, .work 1, .disp 0] := by
  obtain ⟨s, h1, h2⟩ := demoW_reach
  simp only [Prod.mk.injEq] at h2
  exact ⟨s, h1, by decide, by decide, by decide, by decide, by decide, by simp [h2], by decide, by decide⟩

-- `ready_then_take`, `take_then_run`: fiber 0 is made ready by thread 0 and next taken by thread 1, which runs it
example : ∃ s a b c, Reach step (init true 2) s (a ++ .ready 0 (.work 0) :: b ++ .take 1 0 (.work 0) :: c) ∧
    (∀ o ∈ b, about (.work 0) o = false) ∧ c.head? = some (.run 1 (.work 0)) := by
  obtain ⟨s, h1, _⟩ := demoW_reach
  exact ⟨s, demoWTrace.take 5, (demoWTrace.drop 6).take 8, demoWTrace.drop 15, h1, by decide, rfl⟩

-- `pinned_stay`: a pinned fiber is taken
example : ∃ s, Reach step (init true 2) s demoWTrace ∧ .take 1 1 (.disp 1) ∈ demoWTrace ∧ own 1 (.disp 1) := by
  obtain ⟨s, h1, _⟩ := demoW_reach
  exact ⟨s, h1, by decide, .inr rfl⟩

-- `accounted_for`, `runs_once`, `pinned_run`
example : ∃ s tr, Reach step (init false 1) s tr ∧ s.st (.main 0) = .live ∧ s.run 0 = some (.work 0) ∧ s.shared = [.work 1] ∧ .main 0 ∈ s.loc 0 := by
  obtain ⟨s, h1, h2⟩ := run_to (a := init false 1) (es := startS) (f := fun s => (s.st (.main 0), s.run 0, s.shared, s.loc 0)) (tr := startSTrace)
      (v := (.live, some (.work 0), [.work 1], [.disp 0, .main 0])) (by decide +kernel)
  simp only [Prod.mk.injEq] at h2
  exact ⟨s, _, h1, h2.1, h2.2.1, h2.2.2.1, by simp [h2]⟩

-- `shared_fifo`: two workers became ready, the first was taken
example : ∃ s, Reach step (init false 1) s startSTrace ∧ readyW startSTrace = [.work 0, .work 1] ∧ takeW startSTrace = [.work 0] ∧ s.shared = [.work 1] := by
  obtain ⟨s, h1, h2⟩ := run_to (a := init false 1) (es := startS) (f := fun s => s.shared) (tr := startSTrace) (v := [.work 1]) (by decide +kernel)
  exact ⟨s, h1, by decide, by decide, h2⟩

-- `stealing_no_starvation`: fiber 1 has two fibers before it, and three are taken
example : ∃ a tr₀ s tr, Reach step (init true 2) a tr₀ ∧ Reach step a s tr ∧ a.loc 0 = [.disp 0, .work 0] ++ .work 1 :: [] ∧
    2 < (takeQ 0 tr).length := by
  obtain ⟨a, h1, h2⟩ := run_to (a := init true 2) (es := demoW.take 10) (tr := demoWTrace.take 8)
    (f := fun s => (s.loc 0, (exec step s (demoW.drop 10)).map fun r => r.2)) (v := ([.disp 0, .work 0, .work 1], some (demoWTrace.drop 8))) (by decide +kernel)
  simp only [Prod.mk.injEq, Option.map_eq_some_iff] at h2
  obtain ⟨h2, ⟨s, tr⟩, h3, h4⟩ := h2
  simp only at h4
  subst h4
  exact ⟨a, _, s, _, h1, reach_of_exec h3, h2, by decide⟩

-- `ended_partial`
example : ∃ s, Reach step (init true 1) s (quitWTrace.take 7 ++ .ended 0 :: []) := by
  obtain ⟨s, h1, _⟩ := run_to (a := init true 1) (es := quitW) (f := fun _ => ()) (tr := quitWTrace) (v := ()) (by decide +kernel)
  exact ⟨s, h1⟩

-- `alone_never_returns`: the main fiber of the only thread blocks
example : ∃ s tr, Reach step (init true 1) s tr ∧ stealingAt s 0 = true := by
  obtain ⟨s, h1, h2⟩ := run_to (a := init true 1) (es := [.thread 0, .go 0, .call 0 .block, .go 0, .go 0, .go 0, .disp 0, .go 0])
    (f := fun s => stealingAt s 0) (v := true)
    (tr := [.started 0, .ready 0 (.disp 0), .take 0 0 (.disp 0), .run 0 (.disp 0), .blocked 0 (.main 0)]) (by decide +kernel)
  exact ⟨s, _, h1, h2⟩

-- `pick_returns_partial`: thread 1 of two is in the loop, its first number is its own, the next one 0
example : ∃ s tr, Reach step (init true 2) s tr ∧ s.pc 1 = .steal .disp 0 ∧ (∀ i ∈ [1], i < s.size) ∧ 0 < s.size ∧ (0 : Tid) ≠ 1 ∧ s.size ≤ 0 + [1].length + 1 := by
  obtain ⟨s, h1, h2⟩ := run_to (a := init true 2) (es := demoW.take 20) (f := fun s => (s.pc 1, s.size)) (v := (.steal .disp 0, 2))
    (tr := demoWTrace.take 14) (by decide +kernel)
  simp only [Prod.mk.injEq] at h2
  exact ⟨s, _, h1, h2.1, by simp [h2], by simp [h2], by decide, by simp [h2]⟩

end Verif.Multi
