import Verif.SchedLive
import Verif.Fair

/-! # The scheduler on fair infinite executions -/

namespace Verif.Sch

variable {s s' : State} {t : Tid} {x y : Cx} {o tr : List Obs}

/-- The calls with which a fiber gives way to the others of its thread. -/
def Act.givesWay : Act → Bool
  | .yield | .wait _ | .sleep _ | .finish | .exit => true
  | _ => false

/-- A fiber in its own code, or another one of its thread that has been launched meanwhile, gives way sooner or later. -/
def GivesWay (r : Run step init) : Prop :=
  ∀ i t x, (r.st i).active t = some x → (r.st i).pc x = .user → ∃ j, i ≤ j ∧ ∃ a : Act, a.givesWay ∧ r.ev j = .act t a

/-! ## Single steps -/

/-- What neither the code of the program nor the scheduler of thread `t` does leaves the thread alone. -/
theorem others {e : Event} (h : Inv s) (ha : s.active t = some x) (hs : step s e = some (s', o)) (h1 : e ≠ .run t)
    (h2 : ∀ a, e ≠ .act t a) :
    s'.active t = some x ∧ s'.pc x = s.pc x ∧ s'.rq t = s.rq t ∧ s'.sl t = s.sl t ∧ s'.sd t = s.sd t ∧ s'.wq t = s.wq t := by
  have hA := h.a
  have hh := hA.actHome _ _ ha
  have hpc := hA.actPc _ _ ha
  have hno := hA.none t
  cases e with
  | thread u =>
    simp only [step] at hs
    split at hs
    · simp only [Option.some.injEq, Prod.mk.injEq] at hs
      obtain ⟨rfl, rfl⟩ := hs
      have := hA.born u
      have hu : t ≠ u := by grind
      simp only [upd_other _ _ hu, true_and, and_true]
      refine ⟨ha, ?_⟩
      simp only [set_apply]
      grind
    · cases hs
  | act u a =>
    have hu : u ≠ t := fun e => h2 a (by rw [e])
    simp only [step] at hs
    split at hs
    · rename_i z hz
      split at hs
      · have hzh := hA.actHome _ _ hz
        have hxz : x ≠ z := by rintro rfl; exact hu (hzh.symm.trans hh)
        have hub : ∀ n, s.pc (.work n) = .unborn → x ≠ .work n := by rintro n h1 rfl; grind
        have hpe : ∀ w ep, ep ∈ s.pub w → s.epoch w = ep → s.pc w ≠ .parking ep → x ≠ w := by
          rintro w ep h1 rfl h3 rfl
          rcases h.c.pubE _ h1 with e | e
          · exact h3 e
          · grind
        simp only [act, switch, schedule] at hs
        (repeat' split at hs) <;> simp only [Option.some.injEq, Prod.mk.injEq, reduceCtorEq] at hs
        all_goals obtain ⟨rfl, rfl⟩ := hs
        all_goals simp only [upd_other _ _ (Ne.symm hu), set_apply, and_self, and_true]
        all_goals grind
      · cases hs
    · cases hs
  | run u =>
    have hu : u ≠ t := fun e => h1 (by rw [e])
    simp only [step] at hs
    split at hs
    · rename_i z hz
      have hzh := hA.actHome _ _ hz
      have hxz : x ≠ z := by rintro rfl; exact hu (hzh.symm.trans hh)
      have hxm : x ≠ .main u := by rintro rfl; exact hu hh
      have hsl : ∀ w, w ∈ s.sl u → x ≠ w := by
        rintro w h1 rfl; exact hu ((h.c.slH _ _ h1).1.symm.trans hh)
      simp only [run, leave, switch, schedule, release, scheduleAll_eq] at hs
      (repeat' split at hs) <;> simp only [Option.some.injEq, Prod.mk.injEq, reduceCtorEq] at hs
      all_goals obtain ⟨rfl, rfl⟩ := hs
      all_goals simp only [upd_other _ _ (Ne.symm hu), set_apply, and_self, and_true]
      all_goals grind
    · cases hs
  | spurious u =>
    simp only [step] at hs
    split at hs <;> simp only [Option.some.injEq, Prod.mk.injEq, reduceCtorEq] at hs
    obtain ⟨rfl, rfl⟩ := hs
    exact ⟨ha, rfl, rfl, rfl, rfl, rfl⟩
  | tick n =>
    simp only [step, Option.some.injEq, Prod.mk.injEq] at hs
    obtain ⟨rfl, rfl⟩ := hs
    exact ⟨ha, rfl, rfl, rfl, rfl, rfl⟩

/-- The ready queue of a thread only grows at its end, unless the thread resumes its first fiber. -/
theorem rq_step {e : Event} (h : Inv s) (hq : s.rq t ≠ []) (hs : step s e = some (s', o)) :
    (∃ l, s'.rq t = s.rq t ++ l) ∧ (∀ y, .run t y ∉ o) ∨ ∃ y l l', s.rq t = y :: l ∧ s'.rq t = l ++ l' ∧ .run t y ∈ o := by
  have hA := h.a
  cases e with
  | thread u =>
    simp only [step] at hs
    split at hs
    · simp only [Option.some.injEq, Prod.mk.injEq] at hs
      obtain ⟨rfl, rfl⟩ := hs
      rename_i hm
      have hu : t ≠ u := by
        rintro rfl
        obtain ⟨y, l, e⟩ := List.exists_cons_of_ne_nil hq
        have h1 := h.b.rq t y (by simp [e])
        have h2 := hA.born t
        cases y with
        | main n => grind
        | disp n => grind
        | work n =>
          have h3 := hA.wBorn n
          grind
      left
      simp [upd_other _ _ hu]
    · cases hs
  | act u a =>
    left
    simp only [step] at hs
    split at hs
    · split at hs
      · simp only [act, switch, schedule, transfer_eq] at hs
        (repeat' split at hs) <;> simp only [Option.some.injEq, Prod.mk.injEq, reduceCtorEq] at hs
        all_goals obtain ⟨rfl, rfl⟩ := hs
        all_goals by_cases hu : t = u
        all_goals first
          | (subst hu; simp; done)
          | (simp [upd_other _ _ hu]; done)
          | (subst hu; grind)
          | (simp only [upd_other _ _ hu]; grind)
      · cases hs
    · cases hs
  | run u =>
    simp only [step] at hs
    split at hs
    · simp only [run, leave, switch, schedule, release, scheduleAll_eq] at hs
      (repeat' split at hs) <;> simp only [Option.some.injEq, Prod.mk.injEq, reduceCtorEq] at hs
      all_goals obtain ⟨rfl, rfl⟩ := hs
      all_goals by_cases hu : t = u
      all_goals first
          | (subst hu; left; simp; done)
          | (left; simp [upd_other _ _ hu]; done)
          | (subst hu; exact .inr ⟨_, _, [_], by assumption, by simp; rfl, by simp⟩)
          | (subst hu; exact .inr ⟨_, _, [], by assumption, by simp, by simp⟩)
          | (left; simp [upd_other _ _ hu, hu]; done)
          | (subst hu; left; refine ⟨⟨[], by simp⟩, ?_⟩; intro y; simp; grind)
          | (left; refine ⟨⟨[], by simp [upd_other _ _ hu]⟩, ?_⟩; intro y; simp [hu]; grind)
    · cases hs
  | spurious u =>
    simp only [step] at hs
    split at hs <;> simp only [Option.some.injEq, Prod.mk.injEq, reduceCtorEq] at hs
    obtain ⟨rfl, rfl⟩ := hs
    exact .inl ⟨⟨[], by simp⟩, by simp⟩
  | tick n =>
    simp only [step, Option.some.injEq, Prod.mk.injEq] at hs
    obtain ⟨rfl, rfl⟩ := hs
    exact .inl ⟨⟨[], by simp⟩, by simp⟩

theorem run_enabled (h : (s.pc x).busy ∨ s.pc x = .top) (hc : ∀ dl, s.pc x ≠ .cnd dl) : run s t x ≠ none := by
  cases hp : s.pc x <;> simp only [hp, Pc.busy, reduceCtorEq, or_self, or_false, Bool.false_eq_true] at h hc <;> simp only [run, hp, leave]
  all_goals (repeat' split)
  all_goals first
    | (simp; done)
    | (exfalso; grind)

/-- A thread with ready fibers does not shut down. -/
theorem rq_alive (h : Inv s) (hq : s.rq t ≠ []) (hd : s.active t = some (.disp t) ∨ s.pc (.disp t) = .dead) :
    ¬ (s.sd t = true ∧ s.wq t = []) := by
  intro hc
  obtain ⟨z, l, e⟩ := List.exists_cons_of_ne_nil hq
  obtain ⟨h1, h2, h3⟩ := h.b.rq t z (by simp [e])
  rcases h3 with h3 | h3
  · exact not_last h h1 (.inr h3) hc
  · cases z with
    | main u => exact (h.a.kMain u).1 (by rw [h3]; rfl)
    | work n => exact (h.a.kWork n).1 (by rw [h3]; rfl)
    | disp u =>
      simp at h1; subst h1
      rcases hd with hd | hd
      · exact h2 hd
      · rw [hd] at h3; cases h3

/-- A call with which a fiber gives way brings it to the point where the thread switches to the next fiber. -/
theorem gives_step {a : Act} (ha : a.givesWay) (hs : step s (.act t a) = some (s', o)) :
    ∃ x, s'.active t = some x ∧ (s'.pc x = .yielding ∨ (∃ ep, s'.pc x = .parking ep) ∨ s'.pc x = .leaving ∨ s'.pc x = .closing) := by
  simp only [step] at hs
  split at hs
  · rename_i x hx
    refine ⟨x, ?_⟩
    split at hs
    · cases a <;> simp only [Act.givesWay, Bool.false_eq_true] at ha <;> simp only [act] at hs
      all_goals (repeat' split at hs) <;> simp only [Option.some.injEq, Prod.mk.injEq, reduceCtorEq] at hs
      all_goals obtain ⟨rfl, rfl⟩ := hs
      all_goals simp [hx]
    · cases hs
  · cases hs

/-- Nobody else takes back a notification. -/
theorem others_flag {e : Event} (h : Inv s) (ha : s.active t = some x) (hs : step s e = some (s', o)) (h1 : e ≠ .run t)
    (h2 : ∀ a, e ≠ .act t a) : (s.flag t = true → s'.flag t = true) ∧ (s.sig t = true → s'.sig t = true) := by
  cases e with
  | thread u =>
    simp only [step] at hs
    split at hs <;> simp only [Option.some.injEq, Prod.mk.injEq, reduceCtorEq] at hs
    obtain ⟨rfl, rfl⟩ := hs
    exact ⟨id, id⟩
  | act u a =>
    have hu : u ≠ t := fun e => h2 a (by rw [e])
    simp only [step] at hs
    split at hs
    · split at hs
      · simp only [act, switch, schedule] at hs
        (repeat' split at hs) <;> simp only [Option.some.injEq, Prod.mk.injEq, reduceCtorEq] at hs
        all_goals obtain ⟨rfl, rfl⟩ := hs
        all_goals first
          | exact ⟨id, id⟩
          | (simp only [upd_other _ _ (Ne.symm hu)]; exact ⟨id, id⟩)
      · cases hs
    · cases hs
  | run u =>
    have hu : u ≠ t := fun e => h1 (by rw [e])
    simp only [step] at hs
    split at hs
    · simp only [run, leave, switch, schedule, release, scheduleAll_eq] at hs
      (repeat' split at hs) <;> simp only [Option.some.injEq, Prod.mk.injEq, reduceCtorEq] at hs
      all_goals obtain ⟨rfl, rfl⟩ := hs
      all_goals first
        | exact ⟨id, id⟩
        | (simp only [upd_other _ _ (Ne.symm hu)]; exact ⟨id, id⟩)
        | (simp only [upd_apply]; grind)
    · cases hs
  | spurious u =>
    simp only [step] at hs
    split at hs <;> simp only [Option.some.injEq, Prod.mk.injEq, reduceCtorEq] at hs
    obtain ⟨rfl, rfl⟩ := hs
    simp only [upd_apply]; grind
  | tick n =>
    simp only [step, Option.some.injEq, Prod.mk.injEq] at hs
    obtain ⟨rfl, rfl⟩ := hs
    exact ⟨id, id⟩

/-- Who is resumed was the first ready fiber, and is running now. -/
theorem run_obs {e : Event} (h : Inv s) (hs : step s e = some (s', o)) (ho : .run t y ∈ o) :
    (∃ l, s.rq t = y :: l) ∧ s'.active t = some y ∧ s'.pc y = s.pc y := by
  cases e with
  | run u =>
    simp only [step] at hs
    split at hs
    · rename_i z hz
      have hne : ∀ w l, s.rq u = w :: l → w ≠ z := fun w l e => (next_ready h hz e).2.2.1
      simp only [run, leave, switch, schedule, release, scheduleAll_eq] at hs
      (repeat' split at hs) <;> simp only [Option.some.injEq, Prod.mk.injEq, reduceCtorEq] at hs
      all_goals obtain ⟨rfl, rfl⟩ := hs
      all_goals simp [List.mem_append, List.mem_flatMap] at ho
      all_goals first
        | (obtain ⟨rfl, rfl⟩ := ho; exact ⟨⟨_, by assumption⟩, by simp, set_other _ _ (hne _ _ (by assumption))⟩)
        | (exfalso; grind)
    · cases hs
  | act u a =>
    exfalso
    simp only [step] at hs
    split at hs
    · split at hs
      · simp only [act, switch, schedule] at hs
        (repeat' split at hs) <;> simp only [Option.some.injEq, Prod.mk.injEq, reduceCtorEq] at hs
        all_goals obtain ⟨rfl, rfl⟩ := hs
        all_goals first
          | (simp at ho; done)
          | grind
      · cases hs
    · cases hs
  | _ =>
    exfalso
    simp only [step] at hs
    try split at hs
    all_goals simp only [Option.some.injEq, Prod.mk.injEq, reduceCtorEq] at hs
    all_goals obtain ⟨rfl, rfl⟩ := hs
    all_goals simp at ho

/-- A fiber that becomes ready is in the queue. -/
theorem ready_rq {e : Event} (hs : step s e = some (s', o)) (ho : .ready t y ∈ o) : y ∈ s'.rq t := by
  cases e with
  | run u =>
    simp only [step] at hs
    split at hs
    · simp only [run, leave, switch, schedule, release, scheduleAll_eq] at hs
      (repeat' split at hs) <;> simp only [Option.some.injEq, Prod.mk.injEq, reduceCtorEq] at hs
      all_goals obtain ⟨rfl, rfl⟩ := hs
      all_goals simp [List.mem_append, List.mem_flatMap] at ho
      all_goals first
        | (obtain ⟨rfl, rfl⟩ := ho; simp; done)
        | (obtain ⟨h1, rfl⟩ := ho; simp [h1]; done)
        | (obtain ⟨w, hw, rfl, rfl⟩ := ho; simp [hw]; done)
        | (exfalso; grind)
    · cases hs
  | act u a =>
    simp only [step] at hs
    split at hs
    · split at hs
      · simp only [act, switch, schedule] at hs
        (repeat' split at hs) <;> simp only [Option.some.injEq, Prod.mk.injEq, reduceCtorEq] at hs
        all_goals obtain ⟨rfl, rfl⟩ := hs
        all_goals simp at ho
        all_goals first
          | (obtain ⟨rfl, rfl⟩ := ho; simp; done)
          | (exfalso; grind)
      · cases hs
    · cases hs
  | _ =>
    simp only [step] at hs
    try split at hs
    all_goals simp only [Option.some.injEq, Prod.mk.injEq, reduceCtorEq] at hs
    all_goals obtain ⟨rfl, rfl⟩ := hs
    all_goals simp at ho
    try (obtain ⟨rfl, rfl⟩ := ho; simp)

/-- A new fiber is ready, or running. -/
theorem spawned_then {e : Event} {z : Cx} (hs : step s e = some (s', o)) (ho : .spawned t z y ∈ o) : .ready t y ∈ o ∨ .direct t y ∈ o := by
  cases e with
  | run u =>
    exfalso
    simp only [step] at hs
    split at hs
    · simp only [run, leave, switch, schedule, release, scheduleAll_eq] at hs
      (repeat' split at hs) <;> simp only [Option.some.injEq, Prod.mk.injEq, reduceCtorEq] at hs
      all_goals obtain ⟨rfl, rfl⟩ := hs
      all_goals simp [List.mem_append, List.mem_flatMap] at ho
      all_goals grind
    · cases hs
  | act u a =>
    simp only [step] at hs
    split at hs
    · split at hs
      · simp only [act, switch, schedule] at hs
        (repeat' split at hs) <;> simp only [Option.some.injEq, Prod.mk.injEq, reduceCtorEq] at hs
        all_goals obtain ⟨rfl, rfl⟩ := hs
        all_goals simp at ho
        all_goals obtain ⟨rfl, rfl, rfl⟩ := ho
        all_goals simp
      · cases hs
    · cases hs
  | _ =>
    exfalso
    simp only [step] at hs
    try split at hs
    all_goals simp only [Option.some.injEq, Prod.mk.injEq, reduceCtorEq] at hs
    all_goals obtain ⟨rfl, rfl⟩ := hs
    all_goals simp at ho

/-- The main context of a thread whose main function has just returned. -/
theorem exit_then {e : Event} (hs : step s e = some (s', o)) (ho : .exit t ∈ o) : s'.sd t = true ∧ s'.pc (.main t) = .closing := by
  cases e with
  | run u =>
    exfalso
    simp only [step] at hs
    split at hs
    · simp only [run, leave, switch, schedule, release, scheduleAll_eq] at hs
      (repeat' split at hs) <;> simp only [Option.some.injEq, Prod.mk.injEq, reduceCtorEq] at hs
      all_goals obtain ⟨rfl, rfl⟩ := hs
      all_goals simp [List.mem_append, List.mem_flatMap] at ho
      all_goals grind
    · cases hs
  | act u a =>
    simp only [step] at hs
    split at hs
    · split at hs
      · simp only [act, switch, schedule] at hs
        (repeat' split at hs) <;> simp only [Option.some.injEq, Prod.mk.injEq, reduceCtorEq] at hs
        all_goals obtain ⟨rfl, rfl⟩ := hs
        all_goals simp at ho
        all_goals first
          | (subst ho; subst_vars; simp; done)
          | (exfalso; grind)
      · cases hs
    · cases hs
  | _ =>
    exfalso
    simp only [step] at hs
    try split at hs
    all_goals simp only [Option.some.injEq, Prod.mk.injEq, reduceCtorEq] at hs
    all_goals obtain ⟨rfl, rfl⟩ := hs
    all_goals simp at ho

/-- A fiber whose deadline has passed is ready. -/
theorem expired_rq {e : Event} {n : Nat} (hs : step s e = some (s', o)) (ho : .expired y n ∈ o) : ∃ t, y ∈ s'.rq t := by
  cases e with
  | run u =>
    simp only [step] at hs
    split at hs
    · simp only [run, leave, switch, schedule, release, scheduleAll_eq] at hs
      (repeat' split at hs) <;> simp only [Option.some.injEq, Prod.mk.injEq, reduceCtorEq] at hs
      all_goals obtain ⟨rfl, rfl⟩ := hs
      all_goals simp [List.mem_append, List.mem_flatMap] at ho
      all_goals first
        | (obtain ⟨rfl, rfl⟩ := ho; exact ⟨u, by simp⟩)
        | (exfalso; grind)
    · cases hs
  | act u a =>
    exfalso
    simp only [step] at hs
    split at hs
    · split at hs
      · simp only [act, switch, schedule] at hs
        (repeat' split at hs) <;> simp only [Option.some.injEq, Prod.mk.injEq, reduceCtorEq] at hs
        all_goals obtain ⟨rfl, rfl⟩ := hs
        all_goals first
          | (simp at ho; done)
          | grind
      · cases hs
    · cases hs
  | _ =>
    exfalso
    simp only [step] at hs
    try split at hs
    all_goals simp only [Option.some.injEq, Prod.mk.injEq, reduceCtorEq] at hs
    all_goals obtain ⟨rfl, rfl⟩ := hs
    all_goals simp at ho

/-- A woken fiber is ready, or its waker is about to hand it to its thread. -/
theorem woken_where {e : Event} (hs : step s e = some (s', o)) (ho : .woken y ∈ o) :
    (∃ t, y ∈ s'.rq t) ∨ ∃ z, s'.pc z = .push y := by
  cases e with
  | run u =>
    exfalso
    simp only [step] at hs
    split at hs
    · simp only [run, leave, switch, schedule, release, scheduleAll_eq] at hs
      (repeat' split at hs) <;> simp only [Option.some.injEq, Prod.mk.injEq, reduceCtorEq] at hs
      all_goals obtain ⟨rfl, rfl⟩ := hs
      all_goals simp [List.mem_append, List.mem_flatMap] at ho
      all_goals grind
    · cases hs
  | act u a =>
    simp only [step] at hs
    split at hs
    · split at hs
      · simp only [act, switch, schedule] at hs
        (repeat' split at hs) <;> simp only [Option.some.injEq, Prod.mk.injEq, reduceCtorEq] at hs
        all_goals obtain ⟨rfl, rfl⟩ := hs
        all_goals simp at ho
        all_goals first
          | (subst ho; exact .inr ⟨_, set_same _ _ _⟩)
          | (subst ho; exact .inl ⟨u, by simp⟩)
          | (exfalso; grind)
      · cases hs
    · cases hs
  | _ =>
    exfalso
    simp only [step] at hs
    try split at hs
    all_goals simp only [Option.some.injEq, Prod.mk.injEq, reduceCtorEq] at hs
    all_goals obtain ⟨rfl, rfl⟩ := hs
    all_goals simp at ho

/-- A fiber handed over by another thread stays so until its thread makes it ready. -/
theorem rr_step {e : Event} (hs : step s e = some (s', o)) (hx : x ∈ s.rr t) : x ∈ s'.rr t ∨ x ∈ s'.rq t := by
  cases e with
  | run u =>
    simp only [step] at hs
    split at hs
    · simp only [run, leave, switch, schedule, release, scheduleAll_eq] at hs
      (repeat' split at hs) <;> simp only [Option.some.injEq, Prod.mk.injEq, reduceCtorEq] at hs
      all_goals obtain ⟨rfl, rfl⟩ := hs
      all_goals first
        | exact .inl hx
        | (simp only [upd_apply]; grind)
    · cases hs
  | act u a =>
    simp only [step] at hs
    split at hs
    · split at hs
      · simp only [act, switch, schedule] at hs
        (repeat' split at hs) <;> simp only [Option.some.injEq, Prod.mk.injEq, reduceCtorEq] at hs
        all_goals obtain ⟨rfl, rfl⟩ := hs
        all_goals exact .inl hx
      · cases hs
    · cases hs
  | _ =>
    simp only [step] at hs
    try split at hs
    all_goals simp only [Option.some.injEq, Prod.mk.injEq, reduceCtorEq] at hs
    all_goals obtain ⟨rfl, rfl⟩ := hs
    all_goals exact .inl hx

/-! ## Threads with ready fibers switch -/

section fair

variable {r : Run step init} {i : Nat}

/-- The context a thread is running does what it is about to do. -/
theorem acts (hf : r.Fair Event.run) (ha : (r.st i).active t = some x) (hu : (r.st i).pc x ≠ .user) (hc : ∀ dl, (r.st i).pc x ≠ .cnd dl) :
    ∃ j, i ≤ j ∧ (r.st j).active t = some x ∧ (r.st j).pc x = (r.st i).pc x ∧ (r.st j).rq t = (r.st i).rq t ∧ (r.st j).sl t = (r.st i).sl t ∧
      (r.st j).sd t = (r.st i).sd t ∧ (r.st j).wq t = (r.st i).wq t ∧ run (r.st j) t x = some (r.st (j + 1), r.ob j) := by
  obtain ⟨j, hj, ⟨h1, h2, h3, h4, h5, h6⟩, he⟩ := r.leads hf (f := t) (i := i)
    (P := fun j => (r.st j).active t = some x ∧ (r.st j).pc x = (r.st i).pc x ∧ (r.st j).rq t = (r.st i).rq t ∧
      (r.st j).sl t = (r.st i).sl t ∧ (r.st j).sd t = (r.st i).sd t ∧ (r.st j).wq t = (r.st i).wq t)
    ⟨ha, rfl, rfl, rfl, rfl, rfl⟩
    (fun j _ hP he => by
      have := others (reach_inv (r.reach j)) hP.1 (r.next j) he (by
        intro a e
        have h1 := r.next j
        rw [e] at h1
        simp only [step, hP.1, hP.2.1, if_neg hu] at h1
        cases h1)
      exact ⟨this.1, this.2.1.trans hP.2.1, this.2.2.1.trans hP.2.2.1, this.2.2.2.1.trans hP.2.2.2.1,
        this.2.2.2.2.1.trans hP.2.2.2.2.1, this.2.2.2.2.2.trans hP.2.2.2.2.2⟩)
    (fun j hP => by
      have h1 := (reach_inv (r.reach j)).a.actPc _ _ hP.1
      have h2 := run_enabled (s := r.st j) (t := t) (x := x) (by
        rcases h1 with h1 | h1 | h1
        · exact .inl h1
        · exact absurd (hP.2.1 ▸ h1) hu
        · exact .inr h1) (by rw [hP.2.1]; exact hc)
      simpa only [step, hP.1] using h2)
  have := r.next j
  rw [he] at this
  simp only [step, h1] at this
  exact ⟨j, hj, h1, h2, h3, h4, h5, h6, this⟩

/-- The dispatcher, once it has started, gets to the point where it picks the next fiber. -/
theorem to_pick (hf : r.Fair Event.run) (ha : (r.st i).active t = some x)
    (hp : (r.st i).pc x = .collect ∨ (r.st i).pc x = .clock ∨ ∃ m, (r.st i).pc x = .timers m) :
    ∃ j, i ≤ j ∧ (r.st j).active t = some x ∧ (r.st j).pc x = .pick := by
  have tm : ∀ n j m, (r.st j).active t = some x → (r.st j).pc x = .timers m → ((r.st j).sl t).length = n →
      ∃ k, j ≤ k ∧ (r.st k).active t = some x ∧ (r.st k).pc x = .pick := by
    intro n
    induction n with
    | zero =>
      intro j m ha hp hl
      obtain ⟨k, hk, h1, h2, h3, h4, h5, h6, h7⟩ := acts hf ha (by grind) (by grind)
      rw [hp] at h2
      rw [List.eq_nil_of_length_eq_zero hl] at h4
      simp only [run, h2, h4, Option.some.injEq, Prod.mk.injEq] at h7
      exact ⟨k + 1, by omega, by rw [← h7.1]; exact h1, by rw [← h7.1]; simp⟩
    | succ n ih =>
      intro j m ha hp hl
      obtain ⟨k, hk, h1, h2, h3, h4, h5, h6, h7⟩ := acts hf ha (by grind) (by grind)
      rw [hp] at h2
      obtain ⟨y, l, e⟩ := List.exists_cons_of_length_eq_add_one hl
      have hll : l.length = n := by rw [e] at hl; simpa using hl
      rw [e] at h4
      have hxy : x ≠ y := by
        rintro rfl
        exact (reach_inv (r.reach k)).c.notSl (reach_inv (r.reach k)).a (reach_inv (r.reach k)).b h1 (by simp [h2]) t (by simp [h4])
      have hnd := (reach_inv (r.reach k)).c.slN t
      rw [h4, List.nodup_cons] at hnd
      simp only [run, h2, h4, schedule] at h7
      split at h7
      · split at h7 <;> simp only [Option.some.injEq, Prod.mk.injEq] at h7
        · obtain ⟨k', g1, g2⟩ := ih (k + 1) m (by rw [← h7.1]; exact h1) (by rw [← h7.1]; simp [set_apply, hxy, h2])
            (by rw [← h7.1]; simp [List.erase_of_not_mem hnd.1, hll])
          exact ⟨k', by omega, g2⟩
        · obtain ⟨k', g1, g2⟩ := ih (k + 1) m (by rw [← h7.1]; exact h1) (by rw [← h7.1]; simp [h2]) (by rw [← h7.1]; simp [hll])
          exact ⟨k', by omega, g2⟩
      · simp only [Option.some.injEq, Prod.mk.injEq] at h7
        exact ⟨k + 1, by omega, by rw [← h7.1]; exact h1, by rw [← h7.1]; simp⟩
  have ck : ∀ j, (r.st j).active t = some x → (r.st j).pc x = .clock →
      ∃ k, j ≤ k ∧ (r.st k).active t = some x ∧ (r.st k).pc x = .pick := by
    intro j ha hp
    obtain ⟨k, hk, h1, h2, h3, h4, h5, h6, h7⟩ := acts hf ha (by grind) (by grind)
    rw [hp] at h2
    simp only [run, h2, Option.some.injEq, Prod.mk.injEq] at h7
    obtain ⟨k', g1, g2⟩ := tm _ (k + 1) (r.st k).now (by rw [← h7.1]; exact h1) (by rw [← h7.1]; simp) rfl
    exact ⟨k', by omega, g2⟩
  rcases hp with hp | hp | ⟨m, hp⟩
  · obtain ⟨k, hk, h1, h2, h3, h4, h5, h6, h7⟩ := acts hf ha (by grind) (by grind)
    rw [hp] at h2
    simp only [run, h2, scheduleAll_eq, Option.some.injEq, Prod.mk.injEq] at h7
    obtain ⟨k', g1, g2⟩ := ck (k + 1) (by rw [← h7.1]; exact h1) (by rw [← h7.1]; simp)
    exact ⟨k', by omega, g2⟩
  · exact ck i ha hp
  · exact tm _ i m ha hp rfl

theorem rq_stays {i : Nat} (hq : (r.st i).rq t ≠ []) (hn : ∀ j, i ≤ j → ∀ y, .run t y ∉ r.ob j) :
    ∀ j, i ≤ j → (r.st j).rq t ≠ [] := by
  intro j hj
  obtain ⟨d, rfl⟩ := Nat.le.dest hj
  clear hj
  induction d with
  | zero => exact hq
  | succ d ih =>
    rcases rq_step (reach_inv (r.reach (i + d))) ih (r.next (i + d)) with ⟨⟨l, h⟩, -⟩ | ⟨y, l, l', -, -, h⟩
    · rw [show i + (d + 1) = i + d + 1 from rfl, h]; simp [ih]
    · exact absurd h (hn _ (Nat.le_add_right _ _) y)

/-- A thread with ready fibers resumes one. -/
theorem switches (hf : r.Fair Event.run) (hg : GivesWay r) (hq : (r.st i).rq t ≠ []) : ∃ j, i ≤ j ∧ ∃ y, .run t y ∈ r.ob j := by
  refine Classical.byContradiction fun hc => ?_
  have hn : ∀ j, i ≤ j → ∀ y, .run t y ∉ r.ob j := fun j hj y h => hc ⟨j, hj, y, h⟩
  have hq' := rq_stays hq hn
  clear hc
  -- at a switch
  have sw : ∀ j x, i ≤ j → (r.st j).active t = some x →
      ((r.st j).pc x = .yielding ∨ (∃ ep, (r.st j).pc x = .parking ep) ∨ (r.st j).pc x = .leaving ∨ (r.st j).pc x = .closing ∨
        (r.st j).pc x = .pick) → False := by
    intro j x hj ha hp
    obtain ⟨k, hk, h1, h2, h3, h4, h5, h6, h7⟩ := acts hf ha (by grind) (by grind)
    have hqk := hq' k (by omega)
    rw [← h2] at hp
    obtain ⟨y, l, e⟩ := List.exists_cons_of_ne_nil hqk
    refine hn k (by omega) y ?_
    rcases hp with hp | ⟨ep, hp⟩ | hp | hp | hp <;>
      simp only [run, hp, leave, e, switch, schedule, Option.some.injEq, Prod.mk.injEq, reduceCtorEq, if_false] at h7 <;>
      rw [← h7.2] <;> simp
  -- in the code of the program
  have us : ∀ j x, i ≤ j → (r.st j).active t = some x → (r.st j).pc x = .user → False := by
    intro j x hj ha hp
    obtain ⟨k, hk, a, h1, h2⟩ := hg j t x ha hp
    have h3 := r.next k
    rw [h2] at h3
    obtain ⟨z, h4, h5⟩ := gives_step h1 h3
    exact sw (k + 1) z (by omega) h4 (by grind)
  have sg : ∀ j x u, i ≤ j → (r.st j).active t = some x → (r.st j).pc x = .signal u → False := by
    intro j x u hj ha hp
    obtain ⟨k, hk, h1, h2, h3, h4, h5, h6, h7⟩ := acts hf ha (by grind) (by grind)
    rw [hp] at h2
    simp only [run, h2] at h7
    split at h7 <;> simp only [Option.some.injEq, Prod.mk.injEq] at h7
    · exact us (k + 1) x (by omega) (by rw [← h7.1]; exact h1) (by rw [← h7.1]; simp)
    · exact us (k + 1) x (by omega) (by rw [← h7.1]; exact h1) (by rw [← h7.1]; simp)
  have nt : ∀ j x u, i ≤ j → (r.st j).active t = some x → (r.st j).pc x = .notify u → False := by
    intro j x u hj ha hp
    obtain ⟨k, hk, h1, h2, h3, h4, h5, h6, h7⟩ := acts hf ha (by grind) (by grind)
    rw [hp] at h2
    simp only [run, h2] at h7
    split at h7 <;> simp only [Option.some.injEq, Prod.mk.injEq] at h7
    · exact us (k + 1) x (by omega) (by rw [← h7.1]; exact h1) (by rw [← h7.1]; simp)
    · exact sg (k + 1) x u (by omega) (by rw [← h7.1]; exact h1) (by rw [← h7.1]; simp)
  have co : ∀ j x, i ≤ j → (r.st j).active t = some x → ((r.st j).pc x = .collect ∨ (r.st j).pc x = .clock ∨ ∃ m, (r.st j).pc x = .timers m) → False := by
    intro j x hj ha hp
    obtain ⟨k, hk, h1, h2⟩ := to_pick hf ha hp
    exact sw k x (by omega) h1 (by simp [h2])
  -- all cases
  have hne : (r.st i).active t ≠ none := by
    intro h0
    obtain ⟨y, l, e⟩ := List.exists_cons_of_ne_nil hq
    have hi := reach_inv (r.reach i)
    have h1 := hi.b.rq t y (by simp [e])
    have h2 := (hi.a.none t).1 h0
    have h3 := hi.a.born t
    have h4 := hi.a.dispD t
    rcases h2 with h2 | h2
    · cases y with
      | main n => grind
      | disp n => grind
      | work n => have := hi.a.wBorn n; grind
    · have h5 := hi.a.last t (.inr (h4.2 (.inr h2)))
      exact rq_alive hi hq (.inr (h4.2 (.inr h2))) ⟨h5.2, h5.1⟩
  obtain ⟨x, ha⟩ := Option.ne_none_iff_exists'.1 hne
  have hi := reach_inv (r.reach i)
  have hd := reach_id (r.reach i)
  have hpc := hi.a.actPc _ _ ha
  have hh := hi.a.actHome _ _ ha
  have hx : (((r.st i).pc x).disp ∨ (r.st i).pc x = .last) → x = .disp t := by
    intro h
    have h : ((r.st i).pc x).disp := by rcases h with h | h; exact h; rw [h]; rfl
    cases x with
    | main u => exact absurd h (hi.a.kMain u).1
    | work n => exact absurd h (hi.a.kWork n).1
    | disp u => simp at hh; rw [hh]
  cases hp : (r.st i).pc x <;> simp only [hp, Pc.busy, reduceCtorEq, or_self, or_false, false_or, Bool.false_eq_true] at hpc
  case user => exact us i x (Nat.le_refl _) ha hp
  case yielding => exact sw i x (Nat.le_refl _) ha (.inl hp)
  case parking => exact sw i x (Nat.le_refl _) ha (.inr (.inl ⟨_, hp⟩))
  case leaving => exact sw i x (Nat.le_refl _) ha (.inr (.inr (.inl hp)))
  case closing => exact sw i x (Nat.le_refl _) ha (.inr (.inr (.inr (.inl hp))))
  case pick => exact sw i x (Nat.le_refl _) ha (.inr (.inr (.inr (.inr hp))))
  case signal => exact sg i x _ (Nat.le_refl _) ha hp
  case notify => exact nt i x _ (Nat.le_refl _) ha hp
  case push =>
    obtain ⟨k, hk, h1, h2, h3, h4, h5, h6, h7⟩ := acts hf ha (by grind) (by grind)
    rw [hp] at h2
    simp only [run, h2] at h7
    split at h7 <;> simp only [Option.some.injEq, Prod.mk.injEq] at h7
    · exact nt (k + 1) x _ (by omega) (by rw [← h7.1]; exact h1) (by rw [← h7.1]; simp; rfl)
    · exact nt (k + 1) x _ (by omega) (by rw [← h7.1]; exact h1) (by rw [← h7.1]; simp; rfl)
  case timers => exact co i x (Nat.le_refl _) ha (.inr (.inr ⟨_, hp⟩))
  case clock => exact co i x (Nat.le_refl _) ha (.inr (.inl hp))
  case collect => exact co i x (Nat.le_refl _) ha (.inl hp)
  case top =>
    have hx := hx (.inl (by rw [hp]; rfl))
    obtain ⟨k, hk, h1, h2, h3, h4, h5, h6, h7⟩ := acts hf ha (by grind) (by grind)
    rw [hp] at h2
    have h8 := rq_alive (reach_inv (r.reach k)) (hq' k hk) (.inl (hx ▸ h1))
    simp only [run, h2, release] at h7
    (repeat' split at h7) <;> simp only [Option.some.injEq, Prod.mk.injEq] at h7
    · exact h8 ⟨by assumption, by assumption⟩
    · exact co (k + 1) x (by omega) (by rw [← h7.1]; exact h1) (.inl (by rw [← h7.1]; simp))
    · exact co (k + 1) x (by omega) (by rw [← h7.1]; exact h1) (.inl (by rw [← h7.1]; simp))
  case idle dl =>
    have hx := hx (.inl (by rw [hp]; rfl))
    exact hq (hd.idl t dl (by rw [← hx, hp]; rfl)).1
  case cnd dl =>
    have hx := hx (.inl (by rw [hp]; rfl))
    exact hq (hd.idl t dl (by rw [← hx, hp]; rfl)).1
  case last =>
    have hx := hx (.inl (by rw [hp]; rfl))
    have h5 := hi.a.last t (.inl (by rw [← hx, hp]))
    exact rq_alive hi hq (.inl (hx ▸ ha)) ⟨h5.2, h5.1⟩
  case ending =>
    have hx : x = .main t := by
      cases x with
      | main u => simp at hh; rw [hh]
      | work n => have := (hi.a.kWork n).2; rw [hp] at this; exact absurd rfl this
      | disp u => have := hi.a.kDisp u; rw [hp] at this; simp [Pc.disp] at this
    have hdd := (hi.a.dispD t).2 (.inl (by rw [← hx, hp]))
    have h5 := hi.a.last t (.inr hdd)
    exact rq_alive hi hq (.inr hdd) ⟨h5.2, h5.1⟩

/-- A ready fiber is resumed. -/
theorem queued_runs (hf : r.Fair Event.run) (hg : GivesWay r) (hx : x ∈ (r.st i).rq t) : ∃ j, i ≤ j ∧ .run t x ∈ r.ob j := by
  refine Classical.byContradiction fun hc => ?_
  have hn : ∀ j, i ≤ j → .run t x ∉ r.ob j := fun j hj h => hc ⟨j, hj, h⟩
  clear hc
  have one : ∀ j, i ≤ j → x ∈ (r.st j).rq t →
      x ∈ (r.st (j + 1)).rq t ∧ ((r.st (j + 1)).rq t).idxOf x ≤ ((r.st j).rq t).idxOf x ∧
        ((∃ y, .run t y ∈ r.ob j) → ((r.st (j + 1)).rq t).idxOf x < ((r.st j).rq t).idxOf x) := by
    intro j hj hx
    rcases rq_step (reach_inv (r.reach j)) (List.ne_nil_of_mem hx) (r.next j) with ⟨⟨l, h⟩, h1⟩ | ⟨y, l, l', h1, h2, h3⟩
    · rw [h, List.idxOf_append, if_pos hx]
      exact ⟨by simp [hx], Nat.le_refl _, fun ⟨y, hy⟩ => absurd hy (h1 y)⟩
    · have hxy : y ≠ x := by rintro rfl; exact hn j hj h3
      have hxl : x ∈ l := by rw [h1, List.mem_cons] at hx; exact hx.resolve_left (Ne.symm hxy)
      have hcons : (y :: l).idxOf x = l.idxOf x + 1 := by simp [List.idxOf_cons, beq_false_of_ne hxy]
      rw [h1, h2, List.idxOf_append, if_pos hxl, hcons]
      exact ⟨by simp [hxl], by omega, fun _ => by omega⟩
  have all : ∀ j, i ≤ j → x ∈ (r.st j).rq t := by
    intro j hj
    obtain ⟨d, rfl⟩ := Nat.le.dest hj
    clear hj
    induction d with
    | zero => exact hx
    | succ d ih => exact (one (i + d) (Nat.le_add_right _ _) ih).1
  obtain ⟨M, hM, hc⟩ := constant (ρ := fun j => ((r.st j).rq t).idxOf x) (N := i) (fun j hj => (one j hj (all j hj)).2.1)
  obtain ⟨j, hj, hy⟩ := switches hf hg (List.ne_nil_of_mem (all M hM))
  have h1 := (one j (by omega) (all j (by omega))).2.2 hy
  have h2 := hc j hj
  have h3 := hc (j + 1) (by omega)
  omega

/-! ## The dispatcher -/

/-- The dispatcher of a thread that has something to do comes round. -/
theorem comes_round (hf : r.Fair Event.run) (hg : GivesWay r)
    (hB : ∀ j, i ≤ j → (r.st j).pc (.main t) ≠ .unborn) (hL : ∀ j, i ≤ j → ¬ ((r.st j).sd t = true ∧ (r.st j).wq t = []))
    (hU : ∀ j, i ≤ j → (r.st j).rr t ≠ [] ∨ (((r.st j).sl t).head?.map (r.st j).tp).any (· ≤ (r.st j).now) = true) :
    ∃ k, i ≤ k ∧ (r.st k).active t = some (.disp t) ∧ (r.st k).pc (.disp t) = .top := by
  refine Classical.byContradiction fun hc => ?_
  have hn : ∀ k, i ≤ k → (r.st k).active t = some (.disp t) → (r.st k).pc (.disp t) ≠ .top := fun k h1 h2 h3 => hc ⟨k, h1, h2, h3⟩
  clear hc
  have hdead : ∀ j, i ≤ j → (r.st j).pc (.disp t) ≠ .unborn ∧ (r.st j).pc (.disp t) ≠ .dead ∧ (r.st j).pc (.disp t) ≠ .last := by
    intro j hj
    have hi := (reach_inv (r.reach j)).a
    refine ⟨fun e => hB j hj ((hi.born t).1 e), fun e => ?_, fun e => ?_⟩
    · have := hi.last t (.inr e); exact hL j hj ⟨this.2, this.1⟩
    · have := hi.last t (.inl e); exact hL j hj ⟨this.2, this.1⟩
  have hgone : ∀ j, i ≤ j → (r.st j).gone t = false := by
    intro j hj
    have hi := (reach_inv (r.reach j)).a
    refine Bool.eq_false_iff.2 fun e => (hdead j hj).2.1 ((hi.dispD t).2 (.inr ((hi.gone t).1 e)))
  -- in the queue
  have rq : ∀ j, i ≤ j → .disp t ∈ (r.st j).rq t → False := by
    intro j hj hq
    obtain ⟨k, hk, h1⟩ := queued_runs hf hg hq
    have hi := reach_inv (r.reach k)
    obtain ⟨⟨l, h2⟩, h3, h4⟩ := run_obs hi (r.next k) h1
    refine hn (k + 1) (by omega) h3 ?_
    rw [h4]
    have h5 := (hi.b.rq t (.disp t) (by simp [h2])).2.2
    have h6 := hi.a.kDisp t
    grind
  -- waiting
  have cnd : ∀ j dl, i ≤ j → (r.st j).active t = some (.disp t) → (r.st j).pc (.disp t) = .cnd dl → False := by
    intro j dl hj ha hp
    have stay : ∀ k, j ≤ k → (r.st k).active t = some (.disp t) ∧ (r.st k).pc (.disp t) = .cnd dl := by
      intro k hk
      obtain ⟨d, rfl⟩ := Nat.le.dest hk
      clear hk
      induction d with
      | zero => exact ⟨ha, hp⟩
      | succ d ih =>
        have h1 := r.next (j + d)
        by_cases he : r.ev (j + d) = .run t
        · rw [he] at h1
          simp only [step, ih.1, run, ih.2] at h1
          (repeat' split at h1) <;> simp only [Option.some.injEq, Prod.mk.injEq, reduceCtorEq] at h1
          · refine absurd ?_ (hn (j + d + 1) (by omega) ?_)
            · rw [← h1.1]; simp
            · rw [← h1.1]; exact ih.1
          · rw [show j + (d + 1) = j + d + 1 from rfl, ← h1.1]; exact ih
        · have h2 := others (reach_inv (r.reach (j + d))) ih.1 h1 he (by
            intro a e
            rw [e] at h1
            simp only [step, ih.1, ih.2, reduceCtorEq, if_false] at h1)
          exact ⟨h2.1, h2.2.1.trans ih.2⟩
    have noact : ∀ k, j ≤ k → ∀ a, r.ev k ≠ .act t a := by
      intro k hk a e
      have h1 := r.next k
      rw [e] at h1
      simp only [step, (stay k hk).1, (stay k hk).2, reduceCtorEq, if_false] at h1
    -- whoever can go on does, then the dispatcher is at the top
    have go : ∀ k, j ≤ k → ∀ P : Nat → Prop, P k → (∀ m, k ≤ m → P m → r.ev m ≠ .run t → P (m + 1)) →
        (∀ m, k ≤ m → P m → (dl.any (· ≤ (r.st m).now) = true) ∨ (r.st m).sig t = true ∧ (r.st m).flag t = true) → False := by
      intro k hk P h0 hP hen
      obtain ⟨m, hm, ⟨h1, h1'⟩, h2⟩ := r.leads hf (f := t) (i := k) (P := fun m => k ≤ m ∧ P m) ⟨Nat.le_refl _, h0⟩
        (fun m hm h e => ⟨by omega, hP m hm h.2 e⟩) (fun m h => by
          have := hen m h.1 h.2
          have hs := stay m (by omega)
          simp only [step, hs.1, run, hs.2]
          have hg : ((r.st m).sig t = true ∨ dl.any (· ≤ (r.st m).now) = true) := by
            rcases this with h | h
            · exact .inr h
            · exact .inl h.1
          rw [if_pos hg]
          split <;> simp)
      have h3 := r.next m
      have hs := stay m (by omega)
      have hs' := stay (m + 1) (by omega)
      have hen := hen m h1 h1'
      rw [h2] at h3
      simp only [step, hs.1, run, hs.2] at h3
      rw [if_pos (by rcases hen with h | h; exact .inr h; exact .inl h.1), if_pos (by rcases hen with h | h; exact .inr h; exact .inl h.2)] at h3
      simp only [Option.some.injEq, Prod.mk.injEq] at h3
      have := hs'.2
      rw [← h3.1] at this
      simp at this
    have nolate : ∀ k, j ≤ k → ¬ dl.any (· ≤ (r.st k).now) = true := by
      intro k hk hl
      refine go k hk (fun m => dl.any (· ≤ (r.st m).now) = true) hl (fun m _ h _ => ?_) (fun m _ h => .inl h)
      have := now_step (r.next m)
      cases dl with
      | none => simp at h
      | some d => simp at h ⊢; omega
    have hrr : ∀ k, j ≤ k → (r.st k).rr t ≠ [] := by
      intro k hk
      refine (hU k (by omega)).resolve_right fun h => ?_
      have := ((reach_id (r.reach k)).idl t dl (by rw [(stay k hk).2]; rfl)).2
      rw [← this] at h
      exact nolate k hk h
    have nosig : ∀ k, j ≤ k → (r.st k).flag t = true → (r.st k).sig t = true → False := by
      intro k hk h1 h2
      refine go k hk (fun m => (r.st m).sig t = true ∧ (r.st m).flag t = true) ⟨h2, h1⟩ (fun m hm h e => ?_) (fun m _ h => .inr h)
      have := others_flag (reach_inv (r.reach m)) (stay m (by omega)).1 (r.next m) e (noact m (by omega))
      exact ⟨this.2 h.1, this.1 h.2⟩
    have fstay : ∀ k, j ≤ k → (r.st k).flag t = true → ∀ m, k ≤ m → (r.st m).flag t = true := by
      intro k hk h0 m hm
      obtain ⟨d, rfl⟩ := Nat.le.dest hm
      clear hm
      induction d with
      | zero => exact h0
      | succ d ih =>
        by_cases he : r.ev (k + d) = .run t
        · have h1 := r.next (k + d)
          have hs := stay (k + d) (by omega)
          have hs' := stay (k + d + 1) (by omega)
          rw [he] at h1
          simp only [step, hs.1, run, hs.2, ih, true_or, if_true] at h1
          split at h1
          · simp only [Option.some.injEq, Prod.mk.injEq] at h1
            have := hs'.2
            rw [← h1.1] at this
            simp at this
          · cases h1
        · exact (others_flag (reach_inv (r.reach (k + d))) (stay (k + d) (by omega)).1 (r.next (k + d)) he (noact _ (by omega))).1 ih
    have noflag : ∀ k, j ≤ k → (r.st k).flag t = true → False := by
      intro k hk h0
      rcases (reach_id (r.reach k)).sg t dl (stay k hk).2 h0 with h1 | ⟨z, h1⟩
      · exact nosig k hk h0 h1
      · obtain ⟨m, hm, g1, g2, -, -, -, -, g3⟩ := acts hf ((reach_inv (r.reach k)).a.busyAct z (by rw [h1]; rfl)) (by rw [h1]; simp) (by rw [h1]; simp)
        rw [h1] at g2
        simp only [run, g2, hgone m (by omega), Bool.false_eq_true, if_false, Option.some.injEq, Prod.mk.injEq] at g3
        refine nosig (m + 1) (by omega) (fstay k hk h0 _ (by omega)) ?_
        rw [← g3.1]; simp
    rcases (reach_id (r.reach j)).rem t (hrr j (Nat.le_refl _)) (by rw [hp]; rfl) with h1 | ⟨z, h1⟩
    · exact noflag j (Nat.le_refl _) h1
    · obtain ⟨m, hm, g1, g2, -, -, -, -, g3⟩ := acts hf ((reach_inv (r.reach j)).a.busyAct z (by rw [h1]; rfl)) (by rw [h1]; simp) (by rw [h1]; simp)
      rw [h1] at g2
      simp only [run, g2, hgone m (by omega), Bool.false_eq_true, if_false, Option.some.injEq, Prod.mk.injEq] at g3
      refine noflag (m + 1) (by omega) ?_
      rw [← g3.1]; simp
  have idle : ∀ j dl, i ≤ j → (r.st j).active t = some (.disp t) → (r.st j).pc (.disp t) = .idle dl → False := by
    intro j dl hj ha hp
    obtain ⟨k, hk, h1, h2, h3, h4, h5, h6, h7⟩ := acts hf ha (by grind) (by grind)
    rw [hp] at h2
    simp only [run, h2] at h7
    split at h7 <;> simp only [Option.some.injEq, Prod.mk.injEq] at h7
    · exact hn (k + 1) (by omega) (by rw [← h7.1]; exact h1) (by rw [← h7.1]; simp)
    · exact cnd (k + 1) dl (by omega) (by rw [← h7.1]; exact h1) (by rw [← h7.1]; simp)
  have pick : ∀ j, i ≤ j → (r.st j).active t = some (.disp t) → (r.st j).pc (.disp t) = .pick → False := by
    intro j hj ha hp
    obtain ⟨k, hk, h1, h2, h3, h4, h5, h6, h7⟩ := acts hf ha (by grind) (by grind)
    rw [hp] at h2
    simp only [run, h2] at h7
    split at h7
    · simp only [Option.some.injEq, Prod.mk.injEq] at h7
      exact idle (k + 1) _ (by omega) (by rw [← h7.1]; exact h1) (by rw [← h7.1]; simp; rfl)
    · simp only [leave, switch, schedule] at h7
      split at h7
      · contradiction
      · simp only [Option.some.injEq, Prod.mk.injEq] at h7
        exact rq (k + 1) (by omega) (by rw [← h7.1]; simp)
  -- all cases
  have hi := reach_inv (r.reach i)
  have hd := hdead i (Nat.le_refl _)
  have hk := (hi.a.kDisp t).resolve_left hd.1 |>.resolve_left hd.2.1
  have hb : (r.st i).pc (.disp t) ≠ .top → (r.st i).active t = some (.disp t) := by
    intro h
    refine hi.a.busyAct (.disp t) ?_
    cases hp : (r.st i).pc (.disp t) <;> simp [hp, Pc.disp, Pc.busy] at hk h ⊢
  cases hp : (r.st i).pc (.disp t) <;> simp only [hp, Pc.disp, Bool.false_eq_true] at hk
  case top =>
    rcases hi.b.top t hp with h | h
    · exact hn i (Nat.le_refl _) h hp
    · exact rq i (Nat.le_refl _) h
  case last => exact hd.2.2 hp
  case idle dl => exact idle i dl (Nat.le_refl _) (hb (by simp [hp])) hp
  case cnd dl => exact cnd i dl (Nat.le_refl _) (hb (by simp [hp])) hp
  case pick => exact pick i (Nat.le_refl _) (hb (by simp [hp])) hp
  all_goals
    obtain ⟨k, hk, h1, h2⟩ := to_pick hf (hb (by simp [hp])) (by simp [hp])
    exact pick k hk h1 h2

/-- From the top of its loop, the dispatcher of a thread that does not end comes to the remote queue, … -/
theorem top_collect (hf : r.Fair Event.run) (hL : ∀ j, i ≤ j → ¬ ((r.st j).sd t = true ∧ (r.st j).wq t = []))
    (ha : (r.st i).active t = some (.disp t)) (hp : (r.st i).pc (.disp t) = .top) :
    ∃ k, i ≤ k ∧ (r.st k).active t = some (.disp t) ∧ (r.st k).pc (.disp t) = .collect := by
  obtain ⟨k, hk, h1, h2, h3, h4, h5, h6, h7⟩ := acts hf ha (by grind) (by grind)
  rw [hp] at h2
  have h8 := hL k hk
  simp only [run, h2, release] at h7
  (repeat' split at h7) <;> simp only [Option.some.injEq, Prod.mk.injEq] at h7
  · exact absurd ⟨by assumption, by assumption⟩ h8
  · exact ⟨k + 1, by omega, by rw [← h7.1]; exact h1, by rw [← h7.1]; simp⟩
  · exact ⟨k + 1, by omega, by rw [← h7.1]; exact h1, by rw [← h7.1]; simp⟩

/-- … empties it … -/
theorem collect_clock (hf : r.Fair Event.run) (ha : (r.st i).active t = some (.disp t)) (hp : (r.st i).pc (.disp t) = .collect) :
    ∃ k, i ≤ k ∧ (r.st k).active t = some (.disp t) ∧ (r.st k).pc (.disp t) = .clock ∧ (r.st k).rr t = [] := by
  obtain ⟨k, hk, h1, h2, h3, h4, h5, h6, h7⟩ := acts hf ha (by grind) (by grind)
  rw [hp] at h2
  simp only [run, h2, scheduleAll_eq, Option.some.injEq, Prod.mk.injEq] at h7
  exact ⟨k + 1, by omega, by rw [← h7.1]; exact h1, by rw [← h7.1]; simp, by rw [← h7.1]; simp⟩

/-- … and looks at the clock. -/
theorem clock_timers (hf : r.Fair Event.run) (ha : (r.st i).active t = some (.disp t)) (hp : (r.st i).pc (.disp t) = .clock) :
    ∃ k m, i ≤ k ∧ m ≤ k ∧ i ≤ m ∧ (r.st k).active t = some (.disp t) ∧ (r.st k).pc (.disp t) = .timers (r.st m).now := by
  obtain ⟨k, hk, h1, h2, h3, h4, h5, h6, h7⟩ := acts hf ha (by grind) (by grind)
  rw [hp] at h2
  simp only [run, h2, Option.some.injEq, Prod.mk.injEq] at h7
  exact ⟨k + 1, k, by omega, by omega, hk, by rw [← h7.1]; exact h1, by rw [← h7.1]; simp⟩

theorem born_of (h : Inv s) (hh : s.home x = t) (hx : s.pc x ≠ .unborn) : s.pc (.main t) ≠ .unborn := by
  cases x with
  | main u => simp at hh; subst hh; exact hx
  | disp u => simp at hh; subst hh; exact fun e => hx ((h.a.born u).2 e)
  | work n => have := h.a.wBorn n hx; simp at hh; rwa [hh] at this

/-- A fiber handed over by another thread becomes ready. -/
theorem remote_ready (hf : r.Fair Event.run) (hg : GivesWay r) (hx : x ∈ (r.st i).rr t) : ∃ j, i ≤ j ∧ x ∈ (r.st j).rq t := by
  refine Classical.byContradiction fun hc => ?_
  have hn : ∀ j, i ≤ j → x ∉ (r.st j).rq t := fun j hj h => hc ⟨j, hj, h⟩
  clear hc
  have all : ∀ j, i ≤ j → x ∈ (r.st j).rr t := by
    intro j hj
    obtain ⟨d, rfl⟩ := Nat.le.dest hj
    clear hj
    induction d with
    | zero => exact hx
    | succ d ih => exact (rr_step (r.next (i + d)) ih).resolve_right (hn (i + d + 1) (by omega))
  have hb : ∀ j, i ≤ j → (r.st j).home x = t ∧ (r.st j).pc x = .user := fun j hj => by
    have := (reach_inv (r.reach j)).b.rr t x (all j hj)
    exact ⟨this.1, this.2.2.1⟩
  have hL : ∀ j, i ≤ j → ¬ ((r.st j).sd t = true ∧ (r.st j).wq t = []) := fun j hj =>
    not_last (reach_inv (r.reach j)) (hb j hj).1 (.inr (hb j hj).2)
  obtain ⟨k, hk, h1, h2⟩ := comes_round hf hg
    (fun j hj => born_of (reach_inv (r.reach j)) (hb j hj).1 (by rw [(hb j hj).2]; simp)) hL
    (fun j hj => .inl (List.ne_nil_of_mem (all j hj)))
  obtain ⟨k', hk', h1, h2⟩ := top_collect hf (fun j hj => hL j (by omega)) h1 h2
  obtain ⟨k'', hk'', h1, h2, h3⟩ := collect_clock hf h1 h2
  have := all k'' (by omega)
  rw [h3] at this
  simp at this

/-- A woken fiber becomes ready. -/
theorem woken_ready (hf : r.Fair Event.run) (hg : GivesWay r) (hx : .woken x ∈ r.ob i) : ∃ j t, i ≤ j ∧ x ∈ (r.st j).rq t := by
  rcases woken_where (r.next i) hx with ⟨t, h⟩ | ⟨z, h⟩
  · exact ⟨i + 1, t, by omega, h⟩
  · obtain ⟨k, hk, h1, h2, -, -, -, -, h7⟩ := acts hf ((reach_inv (r.reach (i + 1))).a.busyAct z (by rw [h]; rfl)) (by rw [h]; simp) (by rw [h]; simp)
    rw [h] at h2
    have hi := reach_inv (r.reach k)
    have hp := (hi.b.ps z x h2).1
    have hgone : (r.st k).gone ((r.st k).home x) = false := by
      refine Bool.eq_false_iff.2 fun e => ?_
      have h3 := hi.a.last ((r.st k).home x) (.inr ((hi.a.dispD _).2 (.inr ((hi.a.gone _).1 e))))
      exact not_last hi rfl (.inr hp) ⟨h3.2, h3.1⟩
    simp only [run, h2, hgone, Bool.false_eq_true, if_false, Option.some.injEq, Prod.mk.injEq] at h7
    obtain ⟨j, hj, h8⟩ := remote_ready (x := x) (i := k + 1) (t := (r.st k).home x) hf hg (by rw [← h7.1]; simp)
    exact ⟨j, _, by omega, h8⟩

theorem now_le {i j : Nat} (h : i ≤ j) : (r.st i).now ≤ (r.st j).now := by
  obtain ⟨d, rfl⟩ := Nat.le.dest h
  clear h
  induction d with
  | zero => exact Nat.le_refl _
  | succ d ih => exact Nat.le_trans ih (now_step (r.next (i + d)))

/-- A fiber that waits with a deadline becomes ready once the deadline has passed. -/
theorem late_ready (hf : r.Fair Event.run) (hg : GivesWay r) {d n : Nat} (hx : .waits x (some d) ∈ r.ob i) (hd : d ≤ (r.st n).now) :
    ∃ j t, i ≤ j ∧ x ∈ (r.st j).rq t := by
  refine Classical.byContradiction fun hc => ?_
  have hn : ∀ j t, i ≤ j → x ∉ (r.st j).rq t := fun j t hj h => hc ⟨j, t, hj, h⟩
  have hnw : ∀ j, i ≤ j → .woken x ∉ r.ob j := fun j hj h => by
    obtain ⟨k, t, h1, h2⟩ := woken_ready hf hg h
    exact hn k t (by omega) h2
  have hne : ∀ j, i ≤ j → ∀ m, .expired x m ∉ r.ob j := fun j hj m h => by
    obtain ⟨t, h1⟩ := expired_rq (r.next j) h
    exact hn (j + 1) t (by omega) h1
  obtain ⟨o1, o2, ho⟩ := List.append_of_mem hx
  have htr : ∀ j, i < j → ∃ b, r.tr j = (r.tr i ++ o1) ++ .waits x (some d) :: b ∧ NoWake x b := by
    intro j hj
    obtain ⟨c, rfl⟩ := Nat.le.dest (show i + 1 ≤ j from hj)
    clear hj
    induction c with
    | zero =>
      refine ⟨o2, by show r.tr i ++ r.ob i = _; rw [ho]; simp, ?_, fun m hm => ?_⟩
      · exact fun hm => hnw i (Nat.le_refl _) (by rw [ho]; simp [hm])
      · exact hne i (Nat.le_refl _) m (by rw [ho]; simp [hm])
    | succ c ih =>
      obtain ⟨b, h1, h2⟩ := ih
      refine ⟨b ++ r.ob (i + 1 + c), by show r.tr (i + 1 + c) ++ r.ob (i + 1 + c) = _; rw [h1]; simp, ?_, fun m => ?_⟩
      · simp only [List.mem_append, not_or]; exact ⟨h2.1, hnw _ (by omega)⟩
      · simp only [List.mem_append, not_or]; exact ⟨h2.2 m, hne _ (by omega) m⟩
  have hw : ∀ j, i < j → (replay (r.tr j)).st x = .waiting (some d) := by
    intro j hj
    obtain ⟨b, h1, h2⟩ := htr j hj
    have := (reach_sim (r.reach j)).1
    rw [h1] at this ⊢
    exact stays_waiting this h2
  have hv : ∀ j, i < j → ((r.st j).pc x).waits ∧ x ∈ (r.st j).sl ((r.st j).home x) ∧ (r.st j).tp x = d := by
    intro j hj
    have := (reach_sim (r.reach j)).2.st x
    rw [hw j hj] at this
    exact view_waiting this.symm
  have hub : ∀ j, i < j → (r.st j).pc x ≠ .unborn := by
    intro j hj e
    have := (hv j hj).1
    rw [e] at this
    simp [Pc.waits] at this
  have hh : ∀ j, i < j → (r.st j).home x = (r.st (i + 1)).home x := by
    intro j hj
    obtain ⟨b, hb⟩ := r.tr_le (show i + 1 ≤ j from hj)
    have h1 := (reach_sim (r.reach j))
    have h2 := h1.2.on x (hub j hj)
    rw [hb] at h1 h2
    have h3 := on_stable h1.1 (by rw [hw (i + 1) (by omega)]; simp)
    rw [← h2, h3.2]
    exact (reach_sim (r.reach (i + 1))).2.on x (hub (i + 1) (by omega))
  generalize ht : (r.st (i + 1)).home x = t at hh
  have hsl : ∀ j, i < j → x ∈ (r.st j).sl t := fun j hj => hh j hj ▸ (hv j hj).2.1
  have hL : ∀ j, i < j → ¬ ((r.st j).sd t = true ∧ (r.st j).wq t = []) := fun j hj =>
    not_last (reach_inv (r.reach j)) (hh j hj) (.inl (hv j hj).1)
  have hle : ∀ j y l, i < j → (r.st j).sl t = y :: l → (r.st j).tp y ≤ d := by
    intro j y l hj hs
    have h1 := (reach_id (r.reach j)).slS t
    have h2 := hsl j hj
    rw [hs, List.pairwise_cons] at h1
    rw [hs, List.mem_cons] at h2
    have h3 := (hv j hj).2.2
    rcases h2 with rfl | h2
    · omega
    · have := h1.1 x h2; omega
  obtain ⟨k, hk, h1, h2⟩ := comes_round (i := max (i + 1) n) (t := t) hf hg
    (fun j hj => born_of (reach_inv (r.reach j)) (hh j (by omega)) (hub j (by omega))) (fun j hj => hL j (by omega))
    (fun j hj => .inr (by
      have h2 := hsl j (by omega)
      cases hs : (r.st j).sl t with
      | nil => rw [hs] at h2; simp at h2
      | cons y l =>
        have h3 := hle j y l (by omega) hs
        have h4 := now_le (r := r) (show n ≤ j by omega)
        simp; omega))
  obtain ⟨k1, hk1, h1, h2⟩ := top_collect hf (fun j hj => hL j (by omega)) h1 h2
  obtain ⟨k2, hk2, h1, h2, -⟩ := collect_clock hf h1 h2
  obtain ⟨k3, m, hk3, hm1, hm2, h1, h2⟩ := clock_timers hf h1 h2
  have hdm : d ≤ (r.st m).now := Nat.le_trans hd (now_le (by omega))
  -- the fiber is found
  have tm : ∀ c j m, i < j → d ≤ m → (r.st j).active t = some (.disp t) → (r.st j).pc (.disp t) = .timers m → ((r.st j).sl t).length = c → False := by
    intro c
    induction c with
    | zero =>
      intro j m hj hm ha hp hl
      have := hsl j hj
      rw [List.eq_nil_of_length_eq_zero hl] at this
      simp at this
    | succ c ih =>
      intro j m hj hm ha hp hl
      obtain ⟨k, hk, h1, h2, h3, h4, h5, h6, h7⟩ := acts hf ha (by grind) (by grind)
      rw [hp] at h2
      obtain ⟨y, l, e⟩ := List.exists_cons_of_length_eq_add_one hl
      have hll : l.length = c := by rw [e] at hl; simpa using hl
      rw [e] at h4
      have hxy : .disp t ≠ y := by
        rintro rfl
        exact (reach_inv (r.reach k)).c.notSl (reach_inv (r.reach k)).a (reach_inv (r.reach k)).b h1 (by simp [h2]) t (by simp [h4])
      have hnd := (reach_inv (r.reach k)).c.slN t
      rw [h4, List.nodup_cons] at hnd
      have hty := hle k y l (by omega) h4
      simp only [run, h2, h4, schedule, if_pos (Nat.le_trans hty hm)] at h7
      split at h7 <;> simp only [Option.some.injEq, Prod.mk.injEq] at h7
      · exact ih (k + 1) m (by omega) hm (by rw [← h7.1]; exact h1) (by rw [← h7.1]; simp [set_apply, hxy, h2])
          (by rw [← h7.1]; simp [List.erase_of_not_mem hnd.1, hll])
      · exact ih (k + 1) m (by omega) hm (by rw [← h7.1]; exact h1) (by rw [← h7.1]; simp [h2]) (by rw [← h7.1]; simp [hll])
  exact tm _ k3 (r.st m).now (by omega) hdm h1 h2 rfl

/-! ## The end of a thread -/

/-- Once its main function has returned and all its fibers have finished, a thread gets no new ones. -/
theorem wq_stays {e : Event} (h : Inv s) (hsd : s.sd t = true) (hw : s.wq t = []) (hs : step s e = some (s', o)) :
    s'.sd t = true ∧ s'.wq t = [] := by
  have hus : ∀ x, s.active t = some x → s.pc x ≠ .user := fun x ha hu => not_last h (h.a.actHome _ _ ha) (.inr hu) ⟨hsd, hw⟩
  cases e with
  | run u =>
    simp only [step] at hs
    split at hs
    · simp only [run, leave, switch, schedule, release, scheduleAll_eq] at hs
      (repeat' split at hs) <;> simp only [Option.some.injEq, Prod.mk.injEq, reduceCtorEq] at hs
      all_goals obtain ⟨rfl, rfl⟩ := hs
      all_goals exact ⟨hsd, hw⟩
    · cases hs
  | act u a =>
    simp only [step] at hs
    split at hs
    · rename_i z hz
      split at hs
      · rename_i hu
        have hut : t ≠ u := by rintro rfl; exact hus z hz hu
        simp only [act, switch, schedule] at hs
        (repeat' split at hs) <;> simp only [Option.some.injEq, Prod.mk.injEq, reduceCtorEq] at hs
        all_goals obtain ⟨rfl, rfl⟩ := hs
        all_goals first
          | exact ⟨hsd, hw⟩
          | (simp only [upd_other _ _ hut]; exact ⟨hsd, hw⟩)
      · cases hs
    · cases hs
  | _ =>
    simp only [step] at hs
    try split at hs
    all_goals simp only [Option.some.injEq, Prod.mk.injEq, reduceCtorEq] at hs
    all_goals obtain ⟨rfl, rfl⟩ := hs
    all_goals exact ⟨hsd, hw⟩

/-- Only the end of a thread ends its main context. -/
theorem main_alive {e : Event} (h : Inv s) (hm : s.pc (.main t) ≠ .dead) (hs : step s e = some (s', o)) (ho : .ended t ∉ o) :
    s'.pc (.main t) ≠ .dead := by
  have hA := h.a
  have hkm := hA.kMain t
  cases e with
  | run u =>
    simp only [step] at hs
    split at hs
    · rename_i z hz
      have hzh := hA.actHome _ _ hz
      have hkd := hA.kDisp
      have hkm' := hA.kMain
      simp only [run, leave, switch, schedule, release, scheduleAll_eq] at hs
      (repeat' split at hs) <;> simp only [Option.some.injEq, Prod.mk.injEq, reduceCtorEq] at hs
      all_goals obtain ⟨rfl, rfl⟩ := hs
      all_goals first
        | exact hm
        | (simp only [set_apply]; grind)
    · cases hs
  | act u a =>
    simp only [step] at hs
    split at hs
    · rename_i z hz
      split at hs
      · simp only [act, switch, schedule] at hs
        (repeat' split at hs) <;> simp only [Option.some.injEq, Prod.mk.injEq, reduceCtorEq] at hs
        all_goals obtain ⟨rfl, rfl⟩ := hs
        all_goals first
          | exact hm
          | (simp only [set_apply]; grind)
      · cases hs
    · cases hs
  | _ =>
    simp only [step] at hs
    try split at hs
    all_goals simp only [Option.some.injEq, Prod.mk.injEq, reduceCtorEq] at hs
    all_goals obtain ⟨rfl, rfl⟩ := hs
    all_goals first
      | exact hm
      | (simp only [set_apply]; grind)

/-- A thread whose main function has returned and whose fibers have all finished ends. -/
theorem thread_ends (hf : r.Fair Event.run) (hg : GivesWay r) (hsd : (r.st i).sd t = true) (hw : (r.st i).wq t = [])
    (hm : (r.st i).pc (.main t) ≠ .dead) : ∃ j, i ≤ j ∧ .ended t ∈ r.ob j := by
  refine Classical.byContradiction fun hc => ?_
  have hn : ∀ j, i ≤ j → .ended t ∉ r.ob j := fun j hj h => hc ⟨j, hj, h⟩
  clear hc
  have all : ∀ j, i ≤ j → ((r.st j).sd t = true ∧ (r.st j).wq t = []) ∧ (r.st j).pc (.main t) ≠ .dead := by
    intro j hj
    obtain ⟨d, rfl⟩ := Nat.le.dest hj
    clear hj
    induction d with
    | zero => exact ⟨⟨hsd, hw⟩, hm⟩
    | succ d ih =>
      have hi := reach_inv (r.reach (i + d))
      exact ⟨wq_stays hi ih.1.1 ih.1.2 (r.next (i + d)), main_alive hi ih.2 (r.next (i + d)) (hn _ (by omega))⟩
  have en : ∀ j, i ≤ j → (r.st j).active t = some (.main t) → (r.st j).pc (.main t) = .ending → False := by
    intro j hj ha hp
    obtain ⟨k, hk, h1, h2, h3, h4, h5, h6, h7⟩ := acts hf ha (by grind) (by grind)
    rw [hp] at h2
    simp only [run, h2, Option.some.injEq, Prod.mk.injEq] at h7
    exact hn k (by omega) (by rw [← h7.2]; simp)
  have la : ∀ j, i ≤ j → (r.st j).active t = some (.disp t) → (r.st j).pc (.disp t) = .last → False := by
    intro j hj ha hp
    obtain ⟨k, hk, h1, h2, h3, h4, h5, h6, h7⟩ := acts hf ha (by grind) (by grind)
    rw [hp] at h2
    simp only [run, h2, release, switch, Option.some.injEq, Prod.mk.injEq] at h7
    exact en (k + 1) (by omega) (by rw [← h7.1]; simp) (by rw [← h7.1]; simp)
  have to : ∀ j, i ≤ j → (r.st j).active t = some (.disp t) → (r.st j).pc (.disp t) = .top → False := by
    intro j hj ha hp
    obtain ⟨k, hk, h1, h2, h3, h4, h5, h6, h7⟩ := acts hf ha (by grind) (by grind)
    rw [hp] at h2
    have h8 := (all k (by omega)).1
    simp only [run, h2, h8.1, h8.2, if_true, Option.some.injEq, Prod.mk.injEq] at h7
    exact la (k + 1) (by omega) (by rw [← h7.1]; exact h1) (by rw [← h7.1]; simp)
  have idle : ∀ j dl, i ≤ j → (r.st j).active t = some (.disp t) → (r.st j).pc (.disp t) = .idle dl → False := by
    intro j dl hj ha hp
    obtain ⟨k, hk, h1, h2, h3, h4, h5, h6, h7⟩ := acts hf ha (by grind) (by grind)
    rw [hp] at h2
    have h8 := (reach_id (r.reach k)).sdf t (all k (by omega)).1.1 (by rw [h2]; rfl)
    simp only [run, h2, h8, if_true, Option.some.injEq, Prod.mk.injEq] at h7
    exact to (k + 1) (by omega) (by rw [← h7.1]; exact h1) (by rw [← h7.1]; simp)
  have pick : ∀ j, i ≤ j → (r.st j).active t = some (.disp t) → (r.st j).pc (.disp t) = .pick → False := by
    intro j hj ha hp
    obtain ⟨k, hk, h1, h2, h3, h4, h5, h6, h7⟩ := acts hf ha (by grind) (by grind)
    rw [hp] at h2
    have hq : (r.st k).rq t = [] := Classical.byContradiction fun hq =>
      rq_alive (reach_inv (r.reach k)) hq (.inl h1) (all k (by omega)).1
    simp only [run, h2, hq, if_true, Option.some.injEq, Prod.mk.injEq] at h7
    exact idle (k + 1) _ (by omega) (by rw [← h7.1]; exact h1) (by rw [← h7.1]; simp; rfl)
  have rq : ∀ j, i ≤ j → .disp t ∈ (r.st j).rq t → False := by
    intro j hj hq
    obtain ⟨k, hk, h1⟩ := queued_runs hf hg hq
    have hi := reach_inv (r.reach k)
    obtain ⟨⟨l, h2⟩, h3, h4⟩ := run_obs hi (r.next k) h1
    refine to (k + 1) (by omega) h3 ?_
    rw [h4]
    have h5 := (hi.b.rq t (.disp t) (by simp [h2])).2.2
    have h6 := hi.a.kDisp t
    grind
  have hi := reach_inv (r.reach i)
  have hub : (r.st i).pc (.disp t) ≠ .unborn := by
    intro e
    have h1 := (hi.a.born t).1 e
    have h2 := (hi.a.sd t).1 hsd
    rw [h1] at h2
    simp [Pc.shut] at h2
  rcases hi.a.kDisp t with hk | hk | hk
  · exact hub hk
  · have h1 := ((hi.a.dispD t).1 hk).resolve_right hm
    exact en i (Nat.le_refl _) (hi.a.busyAct (.main t) (by rw [h1]; rfl)) h1
  · have hb : (r.st i).pc (.disp t) ≠ .top → (r.st i).active t = some (.disp t) := by
      intro h
      refine hi.a.busyAct (.disp t) ?_
      cases hp : (r.st i).pc (.disp t) <;> simp [hp, Pc.disp, Pc.busy] at hk h ⊢
    cases hp : (r.st i).pc (.disp t) <;> simp only [hp, Pc.disp, Bool.false_eq_true] at hk
    case top =>
      rcases hi.b.top t hp with h | h
      · exact to i (Nat.le_refl _) h hp
      · exact rq i (Nat.le_refl _) h
    case last => exact la i (Nat.le_refl _) (hb (by simp [hp])) hp
    case idle dl => exact idle i dl (Nat.le_refl _) (hb (by simp [hp])) hp
    case cnd dl => exact (reach_id (r.reach i)).sdc t dl hsd hp
    case pick => exact pick i (Nat.le_refl _) (hb (by simp [hp])) hp
    all_goals
      obtain ⟨k, hk, h1, h2⟩ := to_pick hf (hb (by simp [hp])) (by simp [hp])
      exact pick k hk h1 h2

end fair

end Verif.Sch
