import Verif.FutureHandles
import Verif.FutureRuns
import Verif.FutureFreed

/-!
# Futures, promises, packaged tasks: C30 – C37, C64

Statements speak about traces: `called f op i` and `ret f op i r t` are the beginning and the end of a call of fiber `f`
about result `i` (`none`: the handle refers to nothing), `stored f i out` the moment a result becomes ready,
`freed i b` the destruction of a shared state (`b`: together with a value), `ub i` an access to a destroyed one.
`handles tr` (`Verif/FutureHandles.lean`) is the specification of what each handle object refers to,
`produces`, `setter`, `delivers`, `noState` (`Verif/FutureSpec.lean`) say what the operations mean.

Every theorem is about `step false`: programs that do not modify or destroy a handle object another fiber is using.
-/

namespace Verif.Fut

variable {V E : Type}

/-- Fiber `f` is inside a call `op` about `i`. -/
def inside (tr : List (Obs V E)) (f : Fid) (op : Op V E) (i : Option Sid) : Prop :=
  ∃ a m, tr = a ++ .called f op i :: m ∧ within f m

theorem within_snoc {f : Fid} {m : List (Obs V E)} {x : Obs V E} (h : within f m) (h1 : ∀ op i, x ≠ .called f op i)
    (h2 : ∀ op i r t, x ≠ .ret f op i r t) : within f (m ++ [x]) := by
  intro y hy
  rcases List.mem_append.1 hy with hy | hy
  · exact h y hy
  · rw [List.mem_singleton.1 hy]; exact ⟨h1, h2⟩

theorem inside_snoc {tr : List (Obs V E)} {f : Fid} {op : Op V E} {i : Option Sid} {x : Obs V E} (h : inside tr f op i)
    (h1 : ∀ op i, x ≠ .called f op i) (h2 : ∀ op i r t, x ≠ .ret f op i r t) : inside (tr ++ [x]) f op i := by
  obtain ⟨a, m, rfl, hw⟩ := h
  exact ⟨a, m ++ [x], by simp, within_snoc hw h1 h2⟩

theorem runs_inside {sp : Spec V E} {tr : List (Obs V E)} (h : Spec.Runs Spec.init tr sp) :
    ∀ f c, sp.inCall f = some c → inside tr f c.op c.sid := by
  generalize h0 : Spec.init = sp0 at h
  induction h with
  | nil => subst h0; simp [Spec.init]
  | snoc hr hn ih =>
    intro g c hc
    cases hn with
    | called f' op' i' hi' =>
      simp only [upd_apply] at hc
      split at hc
      · subst_vars; simp only [Option.some.injEq] at hc; subst hc
        exact ⟨_, [], rfl, by simp [within]⟩
      · rename_i hg
        exact inside_snoc (ih g c hc) (fun op i e => by simp only [Obs.called.injEq] at e; exact hg e.1.symm) (by simp)
    | stored f' j' out' op' hc' hp' hr' =>
      simp only [upd_apply] at hc
      split at hc
      · subst_vars; simp only [Option.some.injEq] at hc; subst hc
        exact inside_snoc (ih _ ⟨op', some j', false⟩ hc') (by simp) (by simp)
      · exact inside_snoc (ih g c hc) (by simp) (by simp)
    | notified | freed => exact inside_snoc (ih g c hc) (by simp) (by simp)
    | ret f' c' r' t' hc' ha' =>
      simp only [upd_apply] at hc
      split at hc
      · cases hc
      · rename_i hg
        exact inside_snoc (ih g c hc) (by simp) (fun op i r t e => by simp only [Obs.ret.injEq] at e; exact hg e.1.symm)

theorem inside_runs {sp : Spec V E} {tr : List (Obs V E)} {f : Fid} {op : Op V E} {i : Option Sid}
    (h : Spec.Runs Spec.init tr sp) (hi : inside tr f op i) : ∃ d, sp.inCall f = some ⟨op, i, d⟩ := by
  obtain ⟨a, m, rfl, hw⟩ := hi
  obtain ⟨spa, ha, h⟩ := h.split
  obtain ⟨spc, hn, h⟩ := h.cons
  obtain ⟨d, h1, -⟩ := runs_within h hw (op := op) (i := i) (d := false) (by cases hn; simp)
  exact ⟨d, h1⟩

/-! ## C30 -/

/-- **C30.** Whatever is done with the handles, a result becomes ready at most once. -/
theorem ready_at_most_once {s : State V E} {tr : List (Obs V E)} (h : Reach (step false) init s tr) (i : Sid) :
    storedN i tr ≤ 1 := by
  obtain ⟨sp, h1, -⟩ := reach_sim h
  rw [(runs_res h1 i).2]; split <;> omega

/-- **C30.** There is only one stored result, and who made it ready called something that produces exactly that. -/
theorem stored_result_unique {s : State V E} {tr : List (Obs V E)} (h : Reach (step false) init s tr) {i : Sid} {f g : Fid}
    {out out' : Outcome V E} (h1 : .stored f i out ∈ tr) (h2 : .stored g i out' ∈ tr) :
    out = out' ∧ ∃ op, .called f op (some i) ∈ tr ∧ produces op = some out := by
  obtain ⟨sp, hr, -⟩ := reach_sim h
  have e1 := ((runs_res hr i).1 out).2 ⟨f, h1⟩
  have e2 := ((runs_res hr i).1 out').2 ⟨g, h2⟩
  rw [e1] at e2
  exact ⟨Option.some.inj e2, runs_stored hr h1⟩

/-- **C30.** Every completed `set_value`, `set_exception` or task invocation on a result either made it ready itself, with
what it was given, and nobody had done so before; or it threw `promise_already_satisfied`, changed nothing, and somebody
else had made it ready. -/
theorem set_outcome {s : State V E} {a m b : List (Obs V E)} {f : Fid} {op op' : Op V E} {i : Sid} {j : Option Sid} {r : Res V E}
    {t : Nat} (h : Reach (step false) init s (a ++ .called f op (some i) :: (m ++ .ret f op' j r t :: b))) (hw : within f m)
    (hset : setter op = true) :
    (r = .ok ∧ (∃ out, produces op = some out ∧ .stored f i out ∈ m) ∧ ∀ g out, .stored g i out ∉ a) ∨
    (r = .err .alreadySatisfied ∧ (∀ k out, .stored f k out ∉ m) ∧ ∃ g out, .stored g i out ∈ a ++ m) := by
  obtain ⟨sp, hr, -⟩ := reach_sim h
  obtain ⟨rfl, rfl, sp1, d, hr1, hd, hst, hal⟩ := runs_call hr hw
  have hal' : r = .ok ∧ d = true ∨ r = .err .alreadySatisfied ∧ d = false ∧ sp1.res i ≠ none := by
    cases op' <;> simp [setter] at hset <;> exact hal
  rcases hal' with ⟨rfl, rfl⟩ | ⟨rfl, rfl, hres⟩
  · obtain ⟨k, out, hm⟩ := hd.1 rfl
    obtain ⟨hk, hp⟩ := hst _ _ hm
    cases hk
    refine .inl ⟨rfl, ⟨out, hp, hm⟩, ?_⟩
    intro g out' hg
    have h1 := (runs_res hr1 i).2
    have : storedN i (a ++ .called f op' (some i) :: m) ≥ 2 := by
      rw [storedN_append]
      have e1 : 0 < storedN i a := by
        unfold storedN; rw [List.countP_pos_iff]; exact ⟨_, hg, by simp⟩
      have e2 : 0 < storedN i (.called f op' (some i) :: m) := by
        unfold storedN; rw [List.countP_pos_iff]; exact ⟨_, List.mem_cons_of_mem _ hm, by simp⟩
      omega
    rw [h1] at this
    split at this <;> omega
  · refine .inr ⟨rfl, ?_, ?_⟩
    · intro k out hm; exact absurd (hd.2 ⟨k, out, hm⟩) (by simp)
    · obtain ⟨out, ho⟩ := Option.ne_none_iff_exists'.1 hres
      obtain ⟨g, hg⟩ := ((runs_res hr1 i).1 out).1 ho
      exact ⟨g, out, by simpa using hg⟩

/-- **C30.** A second attempt throws `promise_already_satisfied`. -/
theorem second_set_throws {s : State V E} {a m b : List (Obs V E)} {f g : Fid} {op op' : Op V E} {i : Sid} {j : Option Sid}
    {r : Res V E} {t : Nat} {out : Outcome V E}
    (h : Reach (step false) init s (a ++ .called f op (some i) :: (m ++ .ret f op' j r t :: b))) (hw : within f m)
    (hset : setter op = true) (hbefore : .stored g i out ∈ a) : r = .err .alreadySatisfied := by
  rcases set_outcome h hw hset with ⟨_, _, h1⟩ | h1
  · exact absurd hbefore (h1 _ _)
  · exact h1.1

/-- Two fibers race to set the same promise. -/
def race : List (Event Nat Nat) :=
  [.call 0 (.mkPromise 0), .call 0 (.getFuture 0 1), .call 1 (.setValue 0 7), .call 2 (.setExc 0 9), .run 2, .run 1, .run 2,
   .call 3 (.get 1), .run 3]

example : ∃ s, Reach (step false) init s
    [.called 0 (.mkPromise 0) (some 0), .ret 0 (.mkPromise 0) (some 0) .ok 0,
     .called 0 (.getFuture 0 1) (some 0), .ret 0 (.getFuture 0 1) (some 0) .ok 0,
     .called 1 (.setValue 0 7) (some 0), .called 2 (.setExc 0 9) (some 0), .stored 2 0 (.exn (.user 9)),
     .ret 1 (.setValue 0 7) (some 0) (.err .alreadySatisfied) 0, .notified 2 0 [], .ret 2 (.setExc 0 9) (some 0) .ok 0,
     .called 3 (.get 1) (some 0), .ret 3 (.get 1) (some 0) (.threw (.user 9)) 0] :=
  ⟨_, reach_of_exec (es := race) rfl⟩

/-! ## C31 -/

/-- **C31.** `get`, `get_exception_ptr` and `wait` return only after the result was made ready, and `get` returns exactly the
stored value or throws exactly the stored exception, `get_exception_ptr` returns exactly the stored exception or null. -/
theorem returns_what_was_stored {s : State V E} {a b : List (Obs V E)} {f : Fid} {op : Op V E} {i : Sid} {r : Res V E} {t : Nat}
    (h : Reach (step false) init s (a ++ .ret f op (some i) r t :: b))
    (hop : (∃ h, op = .get h) ∨ (∃ h, op = .getExc h) ∨ ∃ h, op = .wait h) :
    ∃ g out, .stored g i out ∈ a ∧ delivers op out r := by
  obtain ⟨sp, hr, -⟩ := reach_sim h
  obtain ⟨sp1, d, hr1, hal⟩ := runs_ret hr
  have : ∃ out, sp1.res i = some out ∧ delivers op out r := by
    rcases hop with ⟨h, rfl⟩ | ⟨h, rfl⟩ | ⟨h, rfl⟩ <;> exact hal
  obtain ⟨out, ho, hd⟩ := this
  obtain ⟨g, hg⟩ := ((runs_res hr1 i).1 out).1 ho
  exact ⟨g, out, hg, hd⟩

/-- **C31.** `wait_until` returns `ready` only if the result is ready, and `timeout` only if it is not and the deadline has
passed. -/
theorem wait_until_truthful {s : State V E} {a b : List (Obs V E)} {f : Fid} {k : Hid} {d : Nat} {i : Sid} {r : Res V E} {t : Nat}
    (h : Reach (step false) init s (a ++ .ret f (.waitUntil k d) (some i) r t :: b)) :
    (r = .ready ∧ ∃ g out, .stored g i out ∈ a) ∨ (r = .timeout ∧ d ≤ t ∧ ∀ g out, .stored g i out ∉ a) := by
  obtain ⟨sp, hr, -⟩ := reach_sim h
  obtain ⟨sp1, d', hr1, hal⟩ := runs_ret hr
  rcases hal with ⟨out, ho, hd⟩ | ⟨rfl, ho, hd⟩
  · obtain ⟨g, hg⟩ := ((runs_res hr1 i).1 out).1 ho
    exact .inl ⟨hd, g, out, hg⟩
  · refine .inr ⟨rfl, hd, ?_⟩
    intro g out hg
    rw [((runs_res hr1 i).1 out).2 ⟨g, hg⟩] at ho; cases ho

/-- A waiter times out, then the value arrives, then it and a copy of the shared future receive it. -/
def late : List (Event Nat Nat) :=
  [.call 0 (.mkPromise 0), .call 0 (.getFuture 0 1), .call 0 (.share 1 2), .call 0 (.copy 2 3),
   .call 1 (.waitUntil 2 5), .run 1, .run 1, .tick 5, .timer 1, .run 1, .run 1, .run 1,
   .call 1 (.get 2), .run 1, .run 1, .call 0 (.setValue 0 7), .run 0, .run 0, .run 1, .run 1,
   .call 2 (.getExc 3), .run 2]

example : ∃ s tr, Reach (step false) (init : State Nat Nat) s tr ∧ Obs.ret 1 (.waitUntil 2 5) (some 0) .timeout 5 ∈ tr ∧
    Obs.notified 0 0 [1] ∈ tr ∧ Obs.ret 1 (.get 2) (some 0) (.value 7) 5 ∈ tr ∧
    Obs.ret 2 (.getExc 3) (some 0) (.exc none) 5 ∈ tr :=
  ⟨_, _, reach_of_exec (es := late) rfl, by decide, by decide, by decide, by decide⟩

/-! ## C32 -/

/-- The calls that wait for a result. -/
def waits : Op V E → Bool
  | .get _ | .wait _ | .waitUntil _ _ | .getExc _ => true
  | _ => false

theorem splk_runs {s : State V E} (hc : Core s none) (hw : WI s) {i : Sid} {g : Fid} (h : s.splk i = some g) :
    step false s (.run g) ≠ none := by
  obtain ⟨op, u, hp⟩ := (hw.sp i g).1 h
  simp only [step, run, hp, Pc.sid, if_pos (hc.sid_live (f := g) (j := i) (by rw [hp]; rfl)), runLive]
  simp

theorem notify_runs {s : State V E} (hc : Core s none) (hw : WI s) {i : Sid} {g : Fid} {op : Op V E} {u : Use}
    (hp : s.pc g = .notify op u i) : ∃ k, step false s (.run k) ≠ none := by
  rcases hl : s.splk i with _ | k
  · refine ⟨g, ?_⟩
    simp only [step, run, hp, Pc.sid, if_pos (hc.sid_live (f := g) (j := i) (by rw [hp]; rfl)), runLive, hl]
    cases u <;> simp [finish]
  · exact ⟨k, splk_runs hc hw hl⟩

theorem finish_some {s : State V E} {f : Fid} {op : Op V E} {u : Use} {i : Sid} {r : Res V E} {q : List (Obs V E)} :
    finish s f op u i r q ≠ none := by
  cases u <;> simp [finish]

/-- If nothing can run, everybody inside a call waits for a result that is not ready. -/
theorem quiescent {s : State V E} {tr : List (Obs V E)} (h : Reach (step false) init s tr)
    (hq : ∀ g, step false s (.run g) = none) (f : Fid) :
    s.pc f = .idle ∨ ∃ op u i ep, s.pc f = .waiting op u i ep ∧ s.res i = none := by
  have hc := reach_core h
  have hw := reach_wi h
  have hrun : ∀ {f i}, (s.pc f).sid = some i → runLive s f = none := by
    intro f i hi
    have := hq f
    simp only [step, run, hi, if_pos (hc.sid_live hi)] at this
    exact this
  have hlk : ∀ i, s.splk i = none := by
    intro i
    rcases hl : s.splk i with _ | k
    · rfl
    · exact absurd (hq k) (splk_runs hc hw hl)
  cases hp : s.pc f with
  | idle => exact .inl rfl
  | set op k i out a =>
    have := hrun (f := f) (i := i) (by rw [hp]; rfl)
    simp only [runLive, hp] at this
    split at this
    · split at this
      · cases this
      · exact absurd this finish_some
    · cases this
  | owner op i =>
    have := hrun (f := f) (i := i) (by rw [hp]; rfl)
    simp only [runLive, hp] at this
    split at this
    · exact absurd this finish_some
    · cases this
  | notify op u i =>
    obtain ⟨k, hk⟩ := notify_runs hc hw hp
    exact absurd (hq k) hk
  | enter op u i =>
    have := hrun (f := f) (i := i) (by rw [hp]; rfl)
    simp only [runLive, hp, hlk] at this
    split at this
    · exact absurd this finish_some
    · simp at this
  | enq op u i =>
    have := hrun (f := f) (i := i) (by rw [hp]; rfl)
    simp [runLive, hp] at this
  | waiting op u i ep =>
    refine .inr ⟨op, u, i, ep, rfl, ?_⟩
    have hrd : s.c.ready f = false := by
      have := hrun (f := f) (i := i) (by rw [hp]; rfl)
      simp only [runLive, hp] at this
      split at this
      · split at this
        · cases this
        · split at this <;> cases this
      · simpa using ‹¬ s.c.ready f = true›
    refine Classical.byContradiction fun hres => ?_
    obtain ⟨g, op', u', hg⟩ := hw.pend f i (.inr ⟨⟨op, u, ep, hp⟩, hrd⟩) hres
    obtain ⟨k, hk⟩ := notify_runs hc hw hg
    exact hk (hq k)
  | unlink op u i ep =>
    have := hrun (f := f) (i := i) (by rw [hp]; rfl)
    simp [runLive, hp, hlk] at this
  | last op u i =>
    have := hrun (f := f) (i := i) (by rw [hp]; rfl)
    simp only [runLive, hp] at this
    split at this <;> exact absurd this finish_some

/-- **C32.** Nobody waits forever on a ready result: whenever no fiber can take a step, every fiber that is inside a call is
waiting (`get`, `wait`, `wait_until`, `get_exception_ptr`) for a result that has not been made ready. -/
theorem blocked_only_if_unready {s : State V E} {tr : List (Obs V E)} (h : Reach (step false) init s tr)
    (hq : ∀ g, step false s (.run g) = none) {f : Fid} {op : Op V E} {j : Option Sid} (hin : inside tr f op j) :
    waits op = true ∧ ∃ i, j = some i ∧ ∀ g out, .stored g i out ∉ tr := by
  obtain ⟨sp, hr, hsim⟩ := reach_sim h
  obtain ⟨d, hd⟩ := inside_runs hr hin
  have hcall := hsim.call f
  rcases quiescent h hq f with hp | ⟨op', u, i, ep, hp, hres⟩
  · rw [hp] at hcall; simp only [CallOK] at hcall; rw [hd] at hcall; cases hcall
  · rw [hp] at hcall
    simp only [CallOK] at hcall
    rw [hd] at hcall
    obtain ⟨he, hop⟩ := hcall
    simp only [Option.some.injEq, Call.mk.injEq] at he
    obtain ⟨rfl, rfl, -⟩ := he
    refine ⟨?_, i, rfl, ?_⟩
    · rcases hop with ⟨_, rfl⟩ | ⟨_, rfl⟩ | ⟨_, _, rfl⟩ | ⟨_, rfl⟩ <;> rfl
    · intro g out hg
      have := ((runs_res hr i).1 out).2 ⟨g, hg⟩
      rw [hsim.res, hres] at this; cases this

/-- **C32.** The notification that follows making a result ready makes every fiber blocked on it runnable, and reports
exactly those. -/
theorem notification_releases_all {s s' : State V E} {tr o : List (Obs V E)} {f : Fid} {op : Op V E} {u : Use} {i : Sid}
    (h : Reach (step false) init s tr) (hp : s.pc f = .notify op u i) (hs : step false s (.run f) = some (s', o)) :
    (∀ g op' u' ep, s'.pc g = .waiting op' u' i ep → s'.c.ready g = true) ∧
    ∃ ws, .notified f i ws ∈ o ∧ ∀ g, g ∈ ws ↔ (∃ op' u' ep, s.pc g = .waiting op' u' i ep) ∧ s.c.ready g = false := by
  have hc := reach_core h
  have hw := reach_wi h
  have hmem : ∀ g, g ∈ liveList s.c (s.q i) ↔ (∃ op' u' ep, s.pc g = .waiting op' u' i ep) ∧ s.c.ready g = false := by
    intro g
    rw [hw.w.mem_live_iff]
    constructor
    · rintro ⟨r, h1, h2, h3, h4⟩
      refine ⟨?_, h4⟩
      cases hg : s.pc g <;> rw [hg] at h1 <;> simp [regOf] at h1
      · subst h1; simp only at h2; subst h2; exact ⟨_, _, _, rfl⟩
      · subst h1; simp at h3
    · rintro ⟨⟨op', u', ep, hg⟩, h4⟩
      exact ⟨⟨i, ep, op'.dl, false⟩, by simp [hg, regOf], rfl, rfl, h4⟩
  simp only [step, run, hp, Pc.sid, if_pos (hc.sid_live (f := f) (j := i) (by rw [hp]; rfl)), runLive] at hs
  split at hs
  · have e := finish_wait hs
    obtain ⟨e1, -, -, -, -, e6⟩ := e
    refine ⟨?_, ?_⟩
    · intro g op' u' ep hg
      have hgf : g ≠ f := by rintro rfl; rw [e6, upd_same] at hg; cases hg
      rw [e6] at hg
      simp only [upd_other _ _ hgf] at hg
      rw [e1]
      simp only [hw.w.ready_notifyAll, Bool.or_eq_true, decide_eq_true_eq, hmem]
      cases hr : s.c.ready g
      · exact .inr ⟨⟨_, _, _, hg⟩, rfl⟩
      · exact .inl rfl
    · refine ⟨liveList s.c (s.q i), ?_, hmem⟩
      rw [← hw.w.notifyAll_eq]
      cases u <;> simp only [finish, Option.some.injEq, Prod.mk.injEq] at hs <;> obtain ⟨-, rfl⟩ := hs <;> simp
  · cases hs

/-- **C32.** A call that starts waiting after the result was made ready does not block: its first step returns the result. -/
theorem late_waiter_does_not_block {s s1 : State V E} {tr o1 : List (Obs V E)} {f g : Fid} {op : Op V E} {i : Sid}
    {out : Outcome V E} (h : Reach (step false) init s tr) (hready : .stored g i out ∈ tr) (hop : waits op = true)
    (hs : step false s (.call f op) = some (s1, o1)) (ho : .called f op (some i) ∈ o1) :
    ∃ s2 o2 r t, step false s1 (.run f) = some (s2, o2) ∧ .ret f op (some i) r t ∈ o2 ∧ delivers op out r := by
  obtain ⟨sp, hr, hsim⟩ := reach_sim h
  have hres : s.res i = some out := by rw [← hsim.res]; exact ((runs_res hr i).1 out).2 ⟨g, hready⟩
  have hc1 := reach_core (Reach.tail _ h hs)
  have key : ∃ u, s1.pc f = .enter op u i ∧ s1.res = s.res := by
    rcases called_head hs with h1 | ⟨f', op', o', he, rfl, hno⟩
    · exact absurd ho (h1 _ _ _)
    · simp only [Event.call.injEq] at he
      obtain ⟨rfl, rfl⟩ := he
      have hsid : sidOf s op = some i := by
        simp only [List.mem_cons, Obs.called.injEq, true_and] at ho
        rcases ho with ho | ho
        · exact ho.symm
        · exact absurd ho (hno _ _ _)
      simp only [step] at hs
      split at hs <;> try (simp only [reduceCtorEq] at hs; done)
      split at hs
      · simp at hs
      · rename_i s2 o2 h2
        simp only [Option.some.injEq, Prod.mk.injEq] at hs
        obtain ⟨rfl, -⟩ := hs
        simp only [call] at h2
        split at h2
        · cases op <;> simp [waits] at hop <;> simp at h2
        · rename_i x hx
          cases op <;> simp [waits] at hop <;> simp only [sidOf, Op.subject] at hsid hx <;> simp only [hx, Option.bind_some] at hsid <;>
            simp only [callOn, hsid, Op.subject, start] at h2
          all_goals (repeat' split at h2) <;> try (simp only [reduceCtorEq] at h2; done)
          all_goals
            simp only [Option.some.injEq, Prod.mk.injEq] at h2
            obtain ⟨rfl, -⟩ := h2
            exact ⟨_, upd_same .., rfl⟩
  obtain ⟨u, hp, hr1⟩ := key
  have hrun : step false s1 (.run f) = finish s1 f op u i (outcome op out) := by
    simp only [step, run, hp, Pc.sid, if_pos (hc1.sid_live (f := f) (j := i) (by rw [hp]; rfl)), runLive, hr1, hres]
  rw [hrun]
  have hdel : delivers op out (outcome op out) := by
    cases op <;> simp [waits] at hop <;> cases out <;> simp [delivers, outcome]
  cases u with
  | handle k => exact ⟨_, _, _, s1.now, rfl, by simp, hdel⟩
  | own => exact ⟨_, _, _, s1.now, rfl, by simp, hdel⟩

/-- Fibers 1 and 2 block, the promise is set, both are made runnable and return; fiber 3 comes later and does not block. -/
def wakeTwo : List (Event Nat Nat) :=
  [.call 0 (.mkPromise 0), .call 0 (.getFuture 0 1), .call 0 (.share 1 2), .call 1 (.wait 2), .run 1, .run 1,
   .call 2 (.get 2), .run 2, .run 2, .call 0 (.setValue 0 7), .run 0, .run 0, .run 1, .run 1, .run 2, .run 2,
   .call 3 (.get 2), .run 3]

example : ∃ s tr, Reach (step false) (init : State Nat Nat) s tr ∧ Obs.notified 0 0 [1, 2] ∈ tr ∧
    Obs.ret 1 (.wait 2) (some 0) .ok 0 ∈ tr ∧ Obs.ret 2 (.get 2) (some 0) (.value 7) 0 ∈ tr ∧
    Obs.ret 3 (.get 2) (some 0) (.value 7) 0 ∈ tr :=
  ⟨_, _, reach_of_exec (es := wakeTwo) rfl, by decide, by decide, by decide, by decide⟩

/-- The hypotheses of `blocked_only_if_unready` are met: fiber 1 is blocked and nothing can run. -/
example : ∃ s tr, Reach (step false) (init : State Nat Nat) s tr ∧ inside tr 1 (.wait 1) (some 0) ∧
    ∀ g, step false s (.run g) = none := by
  refine ⟨_, _, reach_of_exec (es := [.call 0 (.mkPromise 0), .call 0 (.getFuture 0 1), .call 1 (.wait 1), .run 1, .run 1]) rfl,
    ⟨[.called 0 (.mkPromise 0) (some 0), .ret 0 (.mkPromise 0) (some 0) .ok 0, .called 0 (.getFuture 0 1) (some 0),
      .ret 0 (.getFuture 0 1) (some 0) .ok 0], [], rfl, by simp [within]⟩, ?_⟩
  intro g
  by_cases h1 : g = 1
  · subst h1; rfl
  · simp [step, run, upd, h1, init, create, addRef, Pc.sid]

/-! ## C33 -/

/-- **C33.** The future of a result was retrieved, no promise or task refers to that result any more, no destructor or
assignment that gave it up is still running, and it was not given up by `reset` (C34): then the result was made ready, and
unless some call set it, with `broken_promise`. -/
theorem abandoned_is_broken {s : State V E} {tr : List (Obs V E)} {i : Sid} (h : Reach (step false) init s tr)
    (hret : retrieved tr i) (hgone : ∀ k kind, (handles tr).obj k = some (kind, some i) → kind.provider = false)
    (hdone : ∀ f op, inside tr f op (some i) → produces op ≠ some (.exn .broken)) (hreset : ¬ wasReset tr i) :
    ∃ f out, .stored f i out ∈ tr ∧ ((∀ g op, .called g op (some i) ∈ tr → setter op = false) → out = .exn .broken) := by
  obtain ⟨sp, hr, hsim⟩ := reach_sim h
  have hh := reach_handles h
  have hres : s.res i ≠ none := by
    intro hres
    rcases reach_retrieved h i hret hres with ⟨k, x, h1, h2, h3, -⟩ | ⟨f, op, hp⟩ | hw
    · have := hgone k x.kind (by rw [hh.obj, h1]; simp [Handle.view, h3])
      rw [h2] at this; cases this
    · have hcall := hsim.call f
      rw [hp] at hcall
      obtain ⟨hin, hop⟩ := hcall
      have := hdone f op (runs_inside hr f _ hin)
      rcases hop with ⟨_, rfl⟩ | ⟨_, _, rfl⟩ <;> exact this rfl
    · exact hreset hw
  obtain ⟨out, ho⟩ := Option.ne_none_iff_exists'.1 hres
  obtain ⟨f, hf⟩ := ((runs_res hr i).1 out).1 (by rw [hsim.res]; exact ho)
  refine ⟨f, out, hf, fun hno => ?_⟩
  obtain ⟨op, hc, hp⟩ := runs_stored hr hf
  have := hno f op hc
  cases op <;> simp [setter] at this <;> simp [produces] at hp <;> exact hp.symm

/-- **C33, "never hangs".** When nothing can run, nobody waits for a result whose promise is gone. -/
theorem abandoned_never_hangs {s : State V E} {tr : List (Obs V E)} {i : Sid} (h : Reach (step false) init s tr)
    (hret : retrieved tr i) (hgone : ∀ k kind, (handles tr).obj k = some (kind, some i) → kind.provider = false)
    (hreset : ¬ wasReset tr i) (hq : ∀ g, step false s (.run g) = none) :
    ∀ f op, ¬ inside tr f op (some i) := by
  intro f op hin
  obtain ⟨g, out, hg, -⟩ := abandoned_is_broken h hret hgone
    (fun f op hin => by
      have := (blocked_only_if_unready h hq hin).1
      cases op <;> simp [waits] at this <;> simp [produces]) hreset
  obtain ⟨-, j, hj, hno⟩ := blocked_only_if_unready h hq hin
  cases hj
  exact hno _ _ hg

/-- A promise is moved, its future retrieved and waited for, and the promise destroyed. -/
def breakIt : List (Event Nat Nat) :=
  [.call 0 (.mkPromise 0), .call 0 (.move 0 1), .call 0 (.getFuture 1 2), .call 0 (.destroy 0), .call 1 (.get 2), .run 1, .run 1,
   .call 0 (.destroy 1), .run 0, .run 0, .run 1, .run 1]

def breakItTrace : List (Obs Nat Nat) :=
  [.called 0 (.mkPromise 0) (some 0), .ret 0 (.mkPromise 0) (some 0) .ok 0, .called 0 (.move 0 1) (some 0),
   .ret 0 (.move 0 1) (some 0) .ok 0, .called 0 (.getFuture 1 2) (some 0), .ret 0 (.getFuture 1 2) (some 0) .ok 0,
   .called 0 (.destroy 0) none, .ret 0 (.destroy 0) none .ok 0, .called 1 (.get 2) (some 0), .called 0 (.destroy 1) (some 0),
   .stored 0 0 (.exn .broken), .notified 0 0 [1], .ret 0 (.destroy 1) (some 0) .ok 0, .freed 0 false,
   .ret 1 (.get 2) (some 0) (.threw .broken) 0]

example : ∃ s, Reach (step false) (init : State Nat Nat) s breakItTrace ∧ retrieved breakItTrace 0 ∧ ¬ wasReset breakItTrace 0 ∧
    (∀ k kind, (handles breakItTrace).obj k = some (kind, some 0) → kind.provider = false) := by
  have hr : Reach (step false) (init : State Nat Nat) _ breakItTrace := reach_of_exec (es := breakIt) rfl
  refine ⟨_, hr, ⟨0, 1, 2, 0, by decide⟩, ?_, ?_⟩
  · rintro ⟨f, k, hm⟩; simp [breakItTrace] at hm
  · intro k kind hk
    rw [(reach_handles hr).obj k] at hk
    by_cases h2 : k = 2
    · subst h2; cases hk
    · by_cases h0 : k = 0
      · subst h0; cases hk
      · by_cases h1 : k = 1
        · subst h1; cases hk
        · simp [upd, h0, h1, h2, init, create, Op.subject] at hk

end Verif.Fut
