import Verif.MultiFair

/-!
# Property C119: fibers that threads share get their turn

`Run`, `Run.Fair` (whoever can go on goes on) and `Run.Strong` (whoever can go on again and again goes on) are in `Verif/Fair.lean`; here the
threads are those who go on. `Event.go t`: thread `t` goes on inside the library; `Event.disp t`: the dispatcher of thread `t` begins its loop
anew (`Strong`, because in between it makes blocked fibers ready). `GivesWay r t` (in `Verif/MultiFair.lean`): whenever a fiber is in the code
of the program on thread `t`, at some time the running fiber of `t` yields, waits or ends. `ready t x`: thread `t` puts fiber `x` into a ready
queue; `run u x`: thread `u` resumes `x`; `ended t`: the scheduler of thread `t` is destroyed. `init true n` is `work_stealing`, `init false n`
is `shared_work`.
-/

namespace Verif.Props.MultiFair

open Verif Verif.Multi
open Verif.Sch (Cx Tid)

variable {st : Bool} {n : Nat} {r : Run step (init st n)} {i : Nat} {t u v : Tid} {x : Cx}

/-- **C119.** A ready fiber is resumed, by some thread, if the thread that made it ready does not end. With `shared_work` this holds of the
fibers that may migrate; `pinned_fiber_starves` shows that it does not hold of the others. -/
theorem ready_fiber_runs (hf : r.Fair Event.go) (hd : r.Strong Event.disp) (hg : GivesWay r t) (hl : ∀ j, i ≤ j → .ended t ∉ r.ob j)
    (hx : st = true ∨ pinned x = false) (h : .ready t x ∈ r.ob i) : ∃ j, i < j ∧ ∃ u, .run u x ∈ r.ob j := by
  obtain ⟨l, hi⟩ := inv_at r i
  have h1 := ready_step hi (r.next i) h
  have hm := reach_mode (r.reach i)
  have ha := alive (i := i + 1) h1.1 (fun j hj => hl j (by omega))
  cases st with
  | true =>
    obtain ⟨j, hj, u, hu⟩ := queued_taken hf hd hg ha (h1.2.1 hm)
    obtain ⟨k, hk, hr⟩ := taken_runs hf hu
    exact ⟨k, by omega, u, hr⟩
  | false =>
    have hx : pinned x = false := by rcases hx with h | h; cases h; exact h
    obtain ⟨j, hj, u, v, hu⟩ := shared_taken hf hd hg ha (h1.2.2 hm hx)
    obtain ⟨k, hk, hr⟩ := taken_runs hf hu
    exact ⟨k, by omega, u, hr⟩

/-- **C119.** `shared_work`: a ready fiber that may migrate is resumed if some thread lives on, even if the thread that made it ready ends. -/
theorem shared_fiber_runs {r : Run step (init false n)} (hf : r.Fair Event.go) (hd : r.Strong Event.disp) (hg : GivesWay r t) {k : Nat}
    (hs : .started t ∈ r.ob k) (hl : ∀ j, .ended t ∉ r.ob j) (hx : pinned x = false) (h : .ready v x ∈ r.ob i) :
    ∃ j, i < j ∧ ∃ u, .run u x ∈ r.ob j := by
  obtain ⟨l, hi⟩ := inv_at r i
  have h1 := ready_step hi (r.next i) h
  have ha := alive (i := k + 1) (started_run (r.next k) hs) (fun j _ => hl j)
  have hq := h1.2.2 (reach_mode (r.reach i)) hx
  refine Classical.byContradiction fun hn => ?_
  have nt : ∀ j, i < j → ∀ u v, .take u v x ∉ r.ob j := fun j hj u v hu => by
    obtain ⟨m, hm, hr⟩ := taken_runs hf hu
    exact hn ⟨m, by omega, u, hr⟩
  have stays : ∀ d, x ∈ (r.st (i + 1 + d)).shared := by
    intro d
    induction d with
    | zero => exact hq
    | succ d ih =>
      obtain ⟨l, hi⟩ := inv_at r (i + 1 + d)
      refine (moves_up (step_shared hi (reach_mode (r.reach _)) (r.next _)) ih fun hm => ?_).1
      obtain ⟨u, v, hu⟩ := mem_takeW hm
      exact nt _ (by omega) u v hu
  obtain ⟨j, hj, u, v, hu⟩ := shared_taken (i := i + 1 + k) hf hd hg (fun j hj => ha j (by omega)) (stays k)
  exact nt j (by omega) u v hu

/-- **C119.** A fiber that has been woken is resumed. -/
theorem woken_fiber_runs (hf : r.Fair Event.go) (hd : r.Strong Event.disp) (hg : GivesWay r t) (hl : ∀ j, i ≤ j → .ended t ∉ r.ob j)
    (hx : st = true ∨ pinned x = false) (h : .woken t x ∈ r.ob i) : ∃ j, i < j ∧ ∃ u, .run u x ∈ r.ob j := by
  obtain ⟨j, hj, h1⟩ := aw_ready hf (woken_step (r.next i) h)
  obtain ⟨k, hk, h2⟩ := ready_fiber_runs hf hd hg (fun k hk => hl k (by omega)) hx h1
  exact ⟨k, by omega, h2⟩

/-- **C119.** A launched fiber starts. -/
theorem launched_fiber_starts (hf : r.Fair Event.go) (hd : r.Strong Event.disp) (hg : GivesWay r t) (hl : ∀ j, i ≤ j → .ended t ∉ r.ob j)
    (hx : pinned x = false) (h : .spawned t x ∈ r.ob i) : ∃ j, i ≤ j ∧ ((∃ u, .run u x ∈ r.ob j) ∨ .direct t x ∈ r.ob j) := by
  rcases spawned_step (r.next i) h with h1 | h1
  · obtain ⟨j, hj, h1⟩ := aw_ready hf h1
    obtain ⟨k, hk, h2⟩ := ready_fiber_runs hf hd hg (fun k hk => hl k (by omega)) (.inr hx) h1
    exact ⟨k, by omega, .inl h2⟩
  · exact ⟨i, Nat.le_refl _, .inr h1⟩

/-- **C119.** `this_fiber::yield` returns, though perhaps on another thread. -/
theorem yield_returns (hf : r.Fair Event.go) (hd : r.Strong Event.disp) (hg : GivesWay r t) (hl : ∀ j, i ≤ j → .ended t ∉ r.ob j)
    (hx : st = true ∨ pinned x = false) (hc : (replay (r.tr i)).cur t = some x) (h : r.ev i = .call t .yield) :
    ∃ j, i < j ∧ ∃ u, .run u x ∈ r.ob j := by
  rw [(reach_inv (r.reach i)).2.cur] at hc
  have h1 := r.next i
  rw [h] at h1
  have hr : (r.st (i + 1)).run t = some x := by
    simp only [step] at h1
    (repeat' split at h1) <;> simp only [Option.some.injEq, Prod.mk.injEq, reduceCtorEq] at h1
    rw [← h1.1]; exact hc
  obtain ⟨j, hj, h2⟩ := yield_ready hf hr (call_step h1)
  obtain ⟨k, hk, h3⟩ := ready_fiber_runs hf hd hg (fun k hk => hl k (by omega)) hx h2
  exact ⟨k, by omega, h3⟩

/-! ## Executions that repeat something -/

/-- The state after `n` repetitions. -/
def rounds (evs : List Event) (s : State) : Nat → State
  | 0 => s
  | n + 1 => match exec step (rounds evs s n) evs with
    | some (s', _) => s'
    | none => rounds evs s n

theorem cycle {pre evs : List Event} {L : State → Prop} {T0 T : List Obs} (hne : 0 < evs.length)
    (h0 : ∃ s, exec step (init st n) pre = some (s, T0) ∧ L s) (hlap : ∀ s, L s → ∃ s', exec step s evs = some (s', T) ∧ L s') :
    ∃ r : Run step (init st n), (∀ j (h : j < pre.length), r.ev j = pre[j]) ∧
      (∀ m j (h : j < evs.length), r.ev (pre.length + evs.length * m + j) = evs[j]) ∧ r.tr pre.length = T0 ∧
      ∀ i o, o ∈ r.ob i → o ∈ T0 ++ T := by
  obtain ⟨s, h1, h2⟩ := h0
  have hL : ∀ m, L (rounds evs s m) ∧ exec step (rounds evs s m) evs = some (rounds evs s (m + 1), T) := by
    have key : ∀ m, L (rounds evs s m) → L (rounds evs s (m + 1)) ∧ exec step (rounds evs s m) evs = some (rounds evs s (m + 1), T) := by
      intro m hm
      obtain ⟨s', a, b⟩ := hlap _ hm
      have : rounds evs s (m + 1) = s' := by simp [rounds, a]
      rw [this]; exact ⟨b, a⟩
    intro m
    have : L (rounds evs s m) := by
      induction m with
      | zero => exact h2
      | succ m ih => exact (key m ih).1
    exact ⟨this, (key m this).2⟩
  obtain ⟨r, a, b, _, d, e⟩ := Run.lasso (st := rounds evs s) (t := fun _ => T) hne h1 (fun m => (hL m).2)
  refine ⟨r, a, b, d, fun i o ho => ?_⟩
  have all : ∀ m, ∀ o ∈ r.tr (pre.length + evs.length * m), o ∈ T0 ++ T := by
    intro m
    induction m with
    | zero => intro o ho; simp only [Nat.mul_zero, Nat.add_zero, d] at ho; exact List.mem_append_left _ ho
    | succ m ih =>
      intro o ho
      rw [e m] at ho
      rcases List.mem_append.1 ho with h | h
      · exact ih o h
      · exact List.mem_append_right _ h
  have hle : i + 1 ≤ pre.length + evs.length * (i + 1) := by
    have : 1 * (i + 1) ≤ evs.length * (i + 1) := Nat.mul_le_mul_right _ hne
    omega
  obtain ⟨w, hw⟩ := r.tr_le hle
  refine all (i + 1) o ?_
  rw [hw]
  exact List.mem_append_left _ (List.mem_append_right _ ho)

/-- Something that is repeated happens again and again. -/
theorem again {pre evs : List Event} {r : Run step (init st n)} (hne : 0 < evs.length)
    (h : ∀ m j (h : j < evs.length), r.ev (pre.length + evs.length * m + j) = evs[j]) {e : Event} (he : e ∈ evs) (i : Nat) :
    ∃ j, i ≤ j ∧ r.ev j = e := by
  obtain ⟨k, hk, rfl⟩ := List.getElem_of_mem he
  refine ⟨pre.length + evs.length * i + k, ?_, h i k hk⟩
  have : 1 * i ≤ evs.length * i := Nat.mul_le_mul_right _ hne
  omega

/-- The other threads have not started. -/
theorem absent {r : Run step (init st n)} (hr : ∀ i o, o ∈ r.ob i → o ≠ .started t) (i : Nat) : (r.st i).run t = none ∧ (r.st i).pc t = .user := by
  have key : (r.st i).run t = none := by
    induction i with
    | zero => rw [r.start]; rfl
    | succ i ih =>
      obtain ⟨l, hi⟩ := inv_at r i
      have hd := hi.dead t ih
      have h1 := r.next i
      have h2 := hr i
      generalize r.st i = a at *
      generalize r.st (i + 1) = b at *
      generalize r.ob i = o at *
      generalize r.ev i = e at *
      by_cases hu : e.actor = t
      · cases e <;> simp only [Event.actor] at hu <;> subst hu <;> simp only [step, go, nothing, ih, hd] at h1 <;> grind
      · rw [(step_frame h1 hu).1]; exact ih
  obtain ⟨l, hi⟩ := inv_at r i
  exact ⟨key, hi.dead t key⟩

/-- A context runs on a thread only if the thread has resumed it, unless it is the main fiber. -/
theorem disp_seen {s : State} {tr : List Obs} (h : Reach step (init st n) s tr) (hr : s.run t = some (.disp t)) : .run t (.disp t) ∈ tr := by
  induction h with
  | refl => simp [init] at hr
  | @tail a b tr o e h hs ih =>
    by_cases hu : a.run t = some (.disp t)
    · exact List.mem_append_left _ (ih hu)
    · refine List.mem_append_right _ ?_
      clear ih h
      cases e <;> simp only [step, go, nothing] at hs <;> (repeat' split at hs) <;>
        simp only [Option.some.injEq, Prod.mk.injEq, reduceCtorEq] at hs <;> obtain ⟨rfl, rfl⟩ := hs <;> simp only [Verif.Multi.upd_apply'] at hr <;> grind

/-! ## `shared_work`: pinned fibers -/

/-- Worker 0 yields to worker 1, which yields to worker 0. -/
def turns : List Event := [.call 0 .yield, .go 0, .go 0, .go 0, .go 0, .go 0, .call 0 .yield, .go 0, .go 0, .go 0, .go 0, .go 0]

theorem loop_exec {s : State} (h : Loop s) : ∃ s', exec step s turns = some (s', lapTrace) ∧ Loop s' := by
  obtain ⟨h1, h2, h3, h4, h5⟩ := h
  refine ⟨_, by simp [turns, exec, step, go, h1, h2, h3, h4, pinned, mayCall, lapTrace]; rfl, ?_⟩
  constructor <;> simp [h1, h5]

/-- An execution in which only thread 0 has started and goes on. -/
theorem lone_fair {r : Run step (init st n)} (hst : ∀ i o t, t ≠ 0 → o ∈ r.ob i → o ≠ .started t) (hgo : ∀ i, ∃ j, i ≤ j ∧ r.ev j = .go 0)
    (hcall : ∀ i, ∃ j, i ≤ j ∧ ∃ w, r.ev j = .call 0 w)
    (hdisp : (∀ i, ∃ j, i ≤ j ∧ r.ev j = .disp 0) ∨ ∀ i, step (r.st i) (.disp 0) = none) :
    r.Fair Event.go ∧ r.Strong Event.disp ∧ ∀ t, GivesWay r t := by
  refine ⟨fun f i => ?_, fun f hen i => ?_, fun t i x hr _ _ => ?_⟩
  · by_cases hf : f = 0
    · subst hf
      obtain ⟨j, h1, h2⟩ := hgo i
      exact ⟨j, h1, .inl h2⟩
    · have := absent (t := f) (fun i o => hst i o f hf) i
      exact ⟨i, Nat.le_refl _, .inr (by simp [step, go, this.2])⟩
  · by_cases hf : f = 0
    · subst hf
      rcases hdisp with h | h
      · exact h i
      · obtain ⟨j, _, hj⟩ := hen i; exact absurd (h j) hj
    · obtain ⟨j, _, hj⟩ := hen i
      have := absent (t := f) (fun i o => hst i o f hf) j
      exact absurd (by simp [step, this.1]) hj
  · by_cases ht : t = 0
    · subst ht; exact hcall i
    · have := absent (t := t) (fun i o => hst i o t ht) i
      rw [this.1] at hr; cases hr

/-- `ob i` of an execution, from its trace. -/
theorem ob_of {r : Run step (init st n)} {o : Obs} : ∀ {j : Nat}, o ∈ r.tr j → ∃ i, o ∈ r.ob i := by
  intro j
  induction j with
  | zero => intro h; cases h
  | succ j ih =>
    intro h
    rcases List.mem_append.1 h with h | h
    · exact ih h
    · exact ⟨j, h⟩

set_option synthInstance.maxSize 2000 in
set_option synthInstance.maxHeartbeats 200000 in
theorem starve : ∃ r : Run step (init false 1), r.Fair Event.go ∧ r.Strong Event.disp ∧ (∀ t, GivesWay r t) ∧
    (∀ i, .ended 0 ∉ r.ob i) ∧ r.tr startS.length = startSTrace ∧ ∀ i u, .run u (.main 0) ∉ r.ob i := by
  obtain ⟨r, _, h2, h3, h4⟩ := cycle (st := false) (n := 1) (pre := startS) (evs := turns) (L := Loop) (T0 := startSTrace) (T := lapTrace) (by decide)
    (by
      have h : ((exec step (init false 1) startS).map fun a => ((a.1.stealing, a.1.run 0, a.1.pc 0, a.1.shared, a.1.loc 0), a.2)) =
          some ((false, some (.work 0), .user, [.work 1], [.disp 0, .main 0]), startSTrace) := by
        decide +kernel
      simp only [Option.map_eq_some_iff, Prod.mk.injEq] at h
      obtain ⟨⟨s, t⟩, h1, ⟨a, b, c, d, e⟩, h3⟩ := h
      exact ⟨s, by rw [h1, ← h3], ⟨a, b, c, d, e⟩⟩)
    (fun s h => loop_exec h)
  have hno : ∀ i u, .run u (.disp 0) ∉ r.ob i ∧ .run u (.main 0) ∉ r.ob i := by
    intro i u
    constructor <;>
    · intro h
      have := h4 i _ h
      simp [startSTrace, lapTrace] at this
  obtain ⟨f1, f2, f3⟩ := lone_fair (r := r)
    (by
      intro i o t ht ho h
      subst h
      have := h4 i _ ho
      simp [startSTrace, lapTrace] at this
      exact ht this)
    (again (by decide) h2 (by simp [turns]))
    (fun i => by
      obtain ⟨j, h, h'⟩ := again (e := .call 0 .yield) (by decide) h2 (by simp [turns]) i
      exact ⟨j, h, _, h'⟩)
    (.inr fun i => by
      by_cases h : (r.st i).run 0 = some (.disp 0)
      · obtain ⟨k, hk⟩ := ob_of (disp_seen (r.reach i) h)
        exact absurd hk (hno k 0).1
      · simp [step, h])
  refine ⟨r, f1, f2, f3, ?_, h3, fun i u => (hno i u).2⟩
  intro i h
  have := h4 i _ h
  simp [startSTrace, lapTrace] at this

/-- **C119, what does not hold.** `shared_work`: a ready fiber that may not migrate (here the main fiber; the same holds of the dispatcher) is
never resumed although the threads go on, the running fibers yield and the thread does not end: while worker fibers are ready, the others have
no turn. -/
theorem pinned_fiber_starves : ∃ r : Run step (init false 1), r.Fair Event.go ∧ r.Strong Event.disp ∧ (∀ t, GivesWay r t) ∧
    (∀ i, .ended 0 ∉ r.ob i) ∧ (∃ i, .ready 0 (.main 0) ∈ r.ob i) ∧ ∀ i u, .run u (.main 0) ∉ r.ob i := by
  obtain ⟨r, h1, h2, h3, h4, h5, h6⟩ := starve
  exact ⟨r, h1, h2, h3, h4, ob_of (j := startS.length) (by rw [h5]; decide), h6⟩

/-! ## Examples -/

/-- `work_stealing`, two threads of which one has started: the main function launches a fiber, which waits; the main
function wakes it, it ends, and the main function yields for ever. -/
def preW : List Event :=
  [.thread 0, .go 0, .spawn 0 0 false, .go 0, .go 0, .call 0 .yield, .go 0, .go 0, .go 0, .go 0, .disp 0, .go 0, .go 0, .go 0, .go 0,
    .call 0 .block, .go 0, .go 0, .go 0, .wake 0 (.work 0), .go 0, .go 0, .call 0 .yield, .go 0, .go 0, .go 0, .go 0, .disp 0, .go 0, .go 0, .go 0, .go 0,
    .call 0 .finish, .go 0, .go 0, .go 0]

def preWTr : List Obs :=
  [.started 0, .ready 0 (.disp 0), .spawned 0 (.work 0), .ready 0 (.work 0), .take 0 0 (.disp 0), .run 0 (.disp 0), .ready 0 (.main 0),
    .take 0 0 (.work 0), .run 0 (.work 0), .ready 0 (.disp 0), .take 0 0 (.main 0), .run 0 (.main 0), .blocked 0 (.work 0), .woken 0 (.work 0),
    .ready 0 (.work 0), .take 0 0 (.disp 0), .run 0 (.disp 0), .ready 0 (.main 0), .take 0 0 (.work 0), .run 0 (.work 0), .ready 0 (.disp 0),
    .take 0 0 (.main 0), .run 0 (.main 0), .done 0 (.work 0)]

def yields : List Event := [.call 0 .yield, .go 0, .go 0, .go 0, .go 0, .disp 0, .go 0, .go 0, .go 0, .go 0]

def yieldsTr : List Obs :=
  [.take 0 0 (.disp 0), .run 0 (.disp 0), .ready 0 (.main 0), .take 0 0 (.main 0), .run 0 (.main 0), .ready 0 (.disp 0)]

/-- The main fiber runs and the dispatcher is ready. -/
structure Alone (s : State) : Prop where
  mode : s.stealing = true
  run : s.run 0 = some (.main 0)
  pc : s.pc 0 = .user
  loc : s.loc 0 = [.disp 0]
  live : s.st (.main 0) = .live

theorem alone_exec {s : State} (h : Alone s) : ∃ s', exec step s yields = some (s', yieldsTr) ∧ Alone s' := by
  obtain ⟨h1, h2, h3, h4, h5⟩ := h
  refine ⟨_, by simp [yields, exec, step, go, h1, h2, h3, h4, h5, pinned, mayCall, yieldsTr]; rfl, ?_⟩
  constructor <;> simp [h1, h5]

set_option synthInstance.maxSize 2000 in
set_option synthInstance.maxHeartbeats 200000 in
theorem demo : ∃ r : Run step (init true 2), r.Fair Event.go ∧ r.Strong Event.disp ∧ (∀ t, GivesWay r t) ∧ (∀ i, .ended 0 ∉ r.ob i) ∧
    (∀ j (h : j < preW.length), r.ev j = preW[j]) ∧ r.tr preW.length = preWTr := by
  obtain ⟨r, h1, h2, h3, h4⟩ := cycle (st := true) (n := 2) (pre := preW) (evs := yields) (L := Alone) (T0 := preWTr) (T := yieldsTr) (by decide)
    (by
      have h : ((exec step (init true 2) preW).map fun a => ((a.1.stealing, a.1.run 0, a.1.pc 0, a.1.loc 0, a.1.st (.main 0)), a.2)) =
          some ((true, some (.main 0), .user, [.disp 0], .live), preWTr) := by
        decide +kernel
      simp only [Option.map_eq_some_iff, Prod.mk.injEq] at h
      obtain ⟨⟨s, t⟩, h1, ⟨a, b, c, d, e⟩, h3⟩ := h
      exact ⟨s, by rw [h1, ← h3], ⟨a, b, c, d, e⟩⟩)
    (fun s h => alone_exec h)
  obtain ⟨f1, f2, f3⟩ := lone_fair (r := r)
    (by
      intro i o t ht ho h
      subst h
      have := h4 i _ ho
      simp [preWTr, yieldsTr] at this
      exact ht this)
    (again (by decide) h2 (by simp [yields]))
    (fun i => by
      obtain ⟨j, h, h'⟩ := again (e := .call 0 .yield) (by decide) h2 (by simp [yields]) i
      exact ⟨j, h, _, h'⟩)
    (.inl (again (by decide) h2 (by simp [yields])))
  refine ⟨r, f1, f2, f3, ?_, h1, h3⟩
  intro i h
  have := h4 i _ h
  simp [preWTr, yieldsTr] at this

-- `ready_fiber_runs`, `launched_fiber_starts`, `woken_fiber_runs`, `yield_returns`: fiber 0 is launched, made ready and woken, the main fiber
-- yields
example : ∃ r : Run step (init true 2), r.Fair Event.go ∧ r.Strong Event.disp ∧ GivesWay r 0 ∧ (∀ i, .ended 0 ∉ r.ob i) ∧
    (∃ i, .ready 0 (.work 0) ∈ r.ob i) ∧ (∃ i, .spawned 0 (.work 0) ∈ r.ob i) ∧ (∃ i, .woken 0 (.work 0) ∈ r.ob i) ∧
    ∃ i, (replay (r.tr i)).cur 0 = some (.main 0) ∧ r.ev i = .call 0 .yield := by
  obtain ⟨r, h1, h2, h3, h4, h5, h6⟩ := demo
  refine ⟨r, h1, h2, h3 0, h4, ob_of (j := preW.length) (by rw [h6]; decide), ob_of (j := preW.length) (by rw [h6]; decide),
    ob_of (j := preW.length) (by rw [h6]; decide), 5, ?_, h5 5 (by decide)⟩
  obtain ⟨t, a, b⟩ := r.part (preW.take 5) 0 (fun j hj => by
    have : j < preW.length := Nat.lt_of_lt_of_le hj (by decide)
    rw [Nat.zero_add, h5 j this]; simp)
  rw [r.start] at a
  have c : (exec step (init true 2) (preW.take 5)).map (·.2) = some (preWTr.take 4) := by decide +kernel
  rw [a] at c
  simp only [Option.map_some, Option.some.injEq] at c
  have : r.tr 5 = preWTr.take 4 := by rw [← c]; exact b
  rw [this]; decide +kernel

-- `shared_fiber_runs`: worker 1 is ready while thread 0 goes on for ever
example : ∃ r : Run step (init false 1), r.Fair Event.go ∧ r.Strong Event.disp ∧ GivesWay r 0 ∧ (∃ k, .started 0 ∈ r.ob k) ∧ (∀ j, .ended 0 ∉ r.ob j) ∧
    pinned (.work 1) = false ∧ ∃ i, .ready 0 (.work 1) ∈ r.ob i := by
  obtain ⟨r, h1, h2, h3, h4, h5, _⟩ := starve
  exact ⟨r, h1, h2, h3 0, ob_of (j := startS.length) (by rw [h5]; decide), h4, rfl, ob_of (j := startS.length) (by rw [h5]; decide)⟩

end Verif.Props.MultiFair
