import Verif.FutLive

/-!
# Property C114: waiting for a future ends

`Run`, `Run.Fair` (whoever can go on goes on) and `Run.Strong` (whoever can go on again and again goes on) are in `Verif/Fair.lean`. A call is
seen as `called f op x` (`x` is the shared state its handle refers to) and its return as `ret f op x result time`; `stored g i out`: the shared
state `i` becomes ready.
-/

namespace Verif.Props.FutLive

open Verif Verif.Fut

variable {V E : Type} {r : Run (step (V := V) (E := E) false) init}

/-- A call that was just made is over or under way. -/
theorem in_after {i : Nat} {f : Fid} {op : Op V E} {x : Option Sid} (h : .called f op x ∈ r.ob i) :
    (∃ y t, .ret f op x y t ∈ r.ob i) ∨ ∃ j, x = some j ∧ opAt ((r.st (i + 1)).pc f) = some (op, j) ∧
      (waits op = true ∨ (∃ op' k out a, (r.st (i + 1)).pc f = .set op' k j out a) ∨ ∃ op', (r.st (i + 1)).pc f = .owner op' j) := by
  have hn := r.next i
  rcases called_head hn with h1 | ⟨f', op', o', he, ho, hno⟩
  · exact absurd h (h1 _ _ _)
  · rw [ho] at h
    simp only [List.mem_cons, Obs.called.injEq] at h
    rcases h with ⟨rfl, rfl, rfl⟩ | h
    · rw [he] at hn
      simp only [step] at hn
      split at hn <;> try (simp only [reduceCtorEq] at hn; done)
      split at hn
      · simp at hn
      · rename_i s2 o2 h2
        simp only [Option.some.injEq, Prod.mk.injEq] at hn
        obtain ⟨rfl, hn⟩ := hn
        rcases call_begun h2 with ⟨y, t, h3⟩ | h3
        · exact .inl ⟨y, t, by rw [← hn]; simp [h3]⟩
        · exact .inr h3
    · exact absurd h (hno _ _ _)

theorem mem_tr {i : Nat} {o : Obs V E} (h : o ∈ r.tr i) : ∃ j, j < i ∧ o ∈ r.ob j := by
  induction i with
  | zero => simp [Run.tr] at h
  | succ i ih =>
    rcases List.mem_append.1 h with h | h
    · obtain ⟨j, h1, h2⟩ := ih h; exact ⟨j, by omega, h2⟩
    · exact ⟨i, by omega, h⟩

theorem mem_tr_of {i j : Nat} {o : Obs V E} (h : o ∈ r.ob i) (hij : i < j) : o ∈ r.tr j := by
  obtain ⟨t, ht⟩ := r.tr_le (show i + 1 ≤ j from hij)
  rw [ht]; simp [Run.tr, h]

theorem stored_res {m : Nat} {g : Fid} {j : Sid} {out : Outcome V E} (h : .stored g j out ∈ r.ob m) : (r.st (m + 1)).res j = some out := by
  obtain ⟨sp, hr, hsim⟩ := reach_sim (r.reach (m + 1))
  rw [← hsim.res]; exact ((runs_res hr j).1 out).2 ⟨g, mem_tr_of h (by omega)⟩

/-- **C114.** Every call returns, except those that wait for a result that never becomes ready: `set_value`, `set_exception`, the call of a
packaged task, destructors and assignments always; `get`, `wait`, `wait_until` and `get_exception_ptr` if the result has become ready or becomes
ready later. -/
theorem call_ends (hf : r.Fair Event.run) {i : Nat} {f : Fid} {op : Op V E} {x : Option Sid} (hc : .called f op x ∈ r.ob i)
    (hw : waits op = true → ∀ j, x = some j → ∃ m g out, .stored g j out ∈ r.ob m) : ∃ k, i ≤ k ∧ ∃ y t, .ret f op x y t ∈ r.ob k := by
  rcases in_after hc with h | ⟨j, rfl, h, h1⟩
  · exact ⟨i, Nat.le_refl _, h⟩
  · have : ∃ m, (r.st m).res j ≠ none := by
      rcases h1 with h1 | h1
      · obtain ⟨m, g, out, hm⟩ := hw h1 j rfl
        exact ⟨m + 1, by rw [stored_res hm]; simp⟩
      · obtain ⟨m, _, hm⟩ := makes_ready hf h1
        exact ⟨m, hm⟩
    obtain ⟨m, hm⟩ := this
    obtain ⟨k, hk, h2⟩ := call_returns hf h hm
    exact ⟨k, by omega, h2⟩

/-- **C114.** What `get` and the others deliver then is the stored result. -/
theorem get_delivers (hf : r.Fair Event.run) {i m : Nat} {f g : Fid} {op : Op V E} {j : Sid} {out : Outcome V E} (hc : .called f op (some j) ∈ r.ob i)
    (hop : waits op = true) (hdl : op.dl = none) (hm : .stored g j out ∈ r.ob m) : ∃ k, i ≤ k ∧ ∃ y t, .ret f op (some j) y t ∈ r.ob k ∧ delivers op out y := by
  obtain ⟨k, hk, y, t, h⟩ := call_ends hf hc (fun _ j' h => by cases h; exact ⟨m, g, out, hm⟩)
  refine ⟨k, hk, y, t, h, ?_⟩
  obtain ⟨a, b, hab⟩ := List.append_of_mem (mem_tr_of h (Nat.lt_succ_self k))
  have hR := r.reach (k + 1)
  rw [hab] at hR
  have hop' : (∃ h, op = .get h) ∨ (∃ h, op = .getExc h) ∨ ∃ h, op = .wait h := by
    cases op <;> simp [waits, Op.dl] at hop hdl ⊢
  obtain ⟨g', out', h1, h2⟩ := returns_what_was_stored hR hop'
  have hR1 := r.reach (k + 1 + m + 1)
  have h3 : .stored g' j out' ∈ r.tr (k + 1 + m + 1) := by
    obtain ⟨t', ht⟩ := r.tr_le (show k + 1 ≤ k + 1 + m + 1 by omega)
    rw [ht, hab]; simp [h1]
  have := (stored_result_unique hR1 h3 (mem_tr_of hm (by omega)))
  obtain ⟨rfl, -⟩ := this
  exact h2

/-- **C114.** `wait_until` and `wait_for` return once the deadline has passed, ready or not, if the scheduler looks after its timers. -/
theorem timed_returns (hf : r.Strong Event.run) (ht : r.Fair Event.timer) {i N : Nat} {f : Fid} {h : Hid} {d : Nat} {x : Option Sid}
    (hc : .called f (.waitUntil h d) x ∈ r.ob i) (hnow : d ≤ (r.st N).now) : ∃ k, i ≤ k ∧ ∃ y t, .ret f (.waitUntil h d) x y t ∈ r.ob k := by
  rcases in_after hc with h1 | ⟨j, rfl, h1, _⟩
  · exact ⟨i, Nat.le_refl _, h1⟩
  · refine Classical.byContradiction fun hno => ?_
    have hin : ∀ e, opAt ((r.st (i + 1 + e)).pc f) = some (.waitUntil h d, j) := by
      intro e
      induction e with
      | zero => exact h1
      | succ e ih =>
        rcases stays ih with h2 | h2
        · exact h2
        · exact absurd ⟨i + 1 + e, by omega, h2⟩ hno
    obtain ⟨k, hk, h2⟩ := late_returns hf ht (x := j) (op := .waitUntil h d) rfl hnow _ (i + 1 + N) (by omega) (hin N) (Nat.le_refl _)
    exact hno ⟨k, by omega, h2⟩

/-- **C114.** A promise or task is given up: its future was retrieved, at some time no promise and no task refers to the result any more, and it
was not given up by `reset`. Then every `get`, `wait`, `wait_until` and `get_exception_ptr` on the result returns. -/
theorem abandoned_returns (hf : r.Fair Event.run) {N : Nat} {j : Sid} (hret : retrieved (r.tr N) j)
    (hgone : ∀ k kind, (handles (r.tr N)).obj k = some (kind, some j) → kind.provider = false) (hreset : ¬ wasReset (r.tr N) j)
    {i : Nat} {f : Fid} {op : Op V E} (hc : .called f op (some j) ∈ r.ob i) : ∃ k, i ≤ k ∧ ∃ y t, .ret f op (some j) y t ∈ r.ob k := by
  have hres : ∃ m, (r.st m).res j ≠ none := by
    cases hres : (r.st N).res j with
    | some out => exact ⟨N, by simp [hres]⟩
    | none =>
      have hh := reach_handles (r.reach N)
      rcases reach_retrieved (r.reach N) j hret hres with ⟨k, x, h1, h2, h3, -⟩ | ⟨f, op, hp⟩ | hw
      · have := hgone k x.kind (by rw [hh.obj, h1]; simp [Handle.view, h3])
        rw [h2] at this; cases this
      · obtain ⟨m, _, hm⟩ := makes_ready hf (.inr ⟨op, hp⟩)
        exact ⟨m, hm⟩
      · exact absurd hw hreset
  obtain ⟨m, hm⟩ := hres
  rcases in_after hc with h | ⟨j', h0, h, _⟩
  · exact ⟨i, Nat.le_refl _, h⟩
  · cases h0
    obtain ⟨k, hk, h2⟩ := call_returns hf h hm
    exact ⟨k, by omega, h2⟩

/-! ## The hypotheses can be met -/

/-- A finite history after which nobody can go on is the beginning of a fair execution. -/
theorem extend {pre : List (Event V E)} {t : List (Obs V E)} (h : ∃ s, exec (step false) init pre = some (s, t) ∧
      ∀ f, step false s (.run f) = none ∧ step false s (.timer f) = none) :
    ∃ r : Run (step (V := V) (E := E) false) init, r.Strong Event.run ∧ r.Fair Event.run ∧ r.Fair Event.timer ∧ (∀ i, pre.length ≤ i → r.tr i = t) ∧
      (∀ i s t', exec (step false) init (pre.take i) = some (s, t') → r.st (min i pre.length) = s) ∧ ∀ o ∈ t, ∃ i, o ∈ r.ob i := by
  obtain ⟨s, h0, hq⟩ := h
  obtain ⟨r, h1, h2⟩ := Run.rests (e0 := .tick 0) h0 (by cases s; simp [step])
  have hs : r.Strong Event.run := by
    intro f hinf
    obtain ⟨j, hj, h⟩ := hinf pre.length
    rw [(h2 j hj).2.1] at h
    exact absurd (hq f).1 h
  refine ⟨r, hs, hs.fair, r.rests_fair h2 (fun f => (hq f).2), fun i hi => (h2 i hi).2.2, fun i s t' he => ?_, fun o ho => ?_⟩
  · obtain ⟨t2, h3, h4⟩ := r.part (pre.take i) 0 (fun j hj => by
      simp only [List.length_take] at hj
      rw [Nat.zero_add, h1 j (by omega)]; simp)
    rw [r.start, he] at h3
    simp only [Nat.zero_add, List.length_take, Option.some.injEq, Prod.mk.injEq] at h3
    exact h3.1.symm
  · obtain ⟨j, _, hj⟩ := mem_tr (r := r) (i := pre.length) (by rw [(h2 _ (Nat.le_refl _)).2.2]; exact ho)
    exact ⟨j, hj⟩

/-- `get()` on another fiber before the value is set; a second one after it. -/
example : ∃ r : Run (step (V := Nat) (E := Nat) false) init, r.Fair Event.run ∧ (∃ i, .called 1 (.get 2) (some 0) ∈ r.ob i) ∧
    (∃ i, .called 0 (.setValue 0 7) (some 0) ∈ r.ob i) ∧ ∃ m, .stored 0 0 (.value 7) ∈ r.ob m := by
  obtain ⟨r, _, h1, _, _, _, h5⟩ := extend (V := Nat) (E := Nat)
    (pre := [.call 0 (.mkPromise 0), .call 0 (.getFuture 0 1), .call 0 (.share 1 2), .call 1 (.get 2), .run 1, .run 1, .call 0 (.setValue 0 7), .run 0, .run 0,
      .run 1, .run 1])
    (t := [.called 0 (.mkPromise 0) (some 0), .ret 0 (.mkPromise 0) (some 0) .ok 0, .called 0 (.getFuture 0 1) (some 0), .ret 0 (.getFuture 0 1) (some 0) .ok 0,
      .called 0 (.share 1 2) (some 0), .ret 0 (.share 1 2) (some 0) .ok 0, .called 1 (.get 2) (some 0), .called 0 (.setValue 0 7) (some 0),
      .stored 0 0 (.value 7), .notified 0 0 [1], .ret 0 (.setValue 0 7) (some 0) .ok 0, .ret 1 (.get 2) (some 0) (.value 7) 0])
    ⟨_, rfl, fun f => by
      by_cases hf : f = 0
      · subst hf; exact ⟨rfl, rfl⟩
      by_cases hf1 : f = 1
      · subst hf1; exact ⟨rfl, rfl⟩
      constructor <;> simp [step, run, upd, hf, hf1, init, create, addRef, Pc.sid]⟩
  exact ⟨r, h1, h5 _ (by simp), h5 _ (by simp), h5 _ (by simp)⟩

/-- `wait_until` on a result that nobody sets. -/
example : ∃ r : Run (step (V := Nat) (E := Nat) false) init, r.Strong Event.run ∧ r.Fair Event.timer ∧ (∃ i, .called 1 (.waitUntil 1 5) (some 0) ∈ r.ob i) ∧
    (∃ N, 5 ≤ (r.st N).now) ∧ ∀ i g out, .stored g 0 out ∉ r.ob i := by
  obtain ⟨r, h1, _, h2, h3, h4, h5⟩ := extend (V := Nat) (E := Nat)
    (pre := [.call 0 (.mkPromise 0), .call 0 (.getFuture 0 1), .call 1 (.waitUntil 1 5), .run 1, .run 1, .tick 6, .timer 1, .run 1, .run 1, .run 1])
    (t := [.called 0 (.mkPromise 0) (some 0), .ret 0 (.mkPromise 0) (some 0) .ok 0, .called 0 (.getFuture 0 1) (some 0), .ret 0 (.getFuture 0 1) (some 0) .ok 0,
      .called 1 (.waitUntil 1 5) (some 0), .ret 1 (.waitUntil 1 5) (some 0) .timeout 6])
    ⟨_, rfl, fun f => by
      by_cases hf : f = 0
      · subst hf; exact ⟨rfl, rfl⟩
      by_cases hf1 : f = 1
      · subst hf1; exact ⟨rfl, rfl⟩
      constructor <;> simp [step, run, upd, hf, hf1, init, create, addRef, Pc.sid]⟩
  refine ⟨r, h1, h2, h5 _ (by simp), ⟨_, by rw [h4 10 _ _ rfl]; decide⟩, fun i g out h => ?_⟩
  have := mem_tr_of (j := max (i + 1) 10) h (by omega)
  rw [h3 _ (by simp; omega)] at this
  simp at this

/-- A promise is destroyed while `get()` waits on another fiber. -/
example : ∃ r : Run (step (V := Nat) (E := Nat) false) init, r.Fair Event.run ∧ (∃ i, .called 1 (.get 2) (some 0) ∈ r.ob i) ∧ ∃ N, retrieved (r.tr N) 0 ∧
    (∀ k kind, (handles (r.tr N)).obj k = some (kind, some 0) → kind.provider = false) ∧ ¬ wasReset (r.tr N) 0 := by
  obtain ⟨r, _, h1, _, h3, _, h5⟩ := extend (V := Nat) (E := Nat) (pre := breakIt) (t := breakItTrace)
    ⟨_, rfl, fun f => by
      by_cases hf : f = 0
      · subst hf; exact ⟨rfl, rfl⟩
      by_cases hf1 : f = 1
      · subst hf1; exact ⟨rfl, rfl⟩
      constructor <;> simp [step, run, upd, hf, hf1, init, create, addRef, Pc.sid, release]⟩
  refine ⟨r, h1, h5 _ (by simp [breakItTrace]), 12, ?_⟩
  rw [h3 12 (by decide)]
  have hr : Reach (step false) (init : State Nat Nat) _ breakItTrace := reach_of_exec (es := breakIt) rfl
  refine ⟨⟨0, 1, 2, 0, by decide⟩, ?_, ?_⟩
  · intro k kind hk
    rw [(reach_handles hr).obj k] at hk
    by_cases h2 : k = 2
    · subst h2; cases hk
    · by_cases h0 : k = 0
      · subst h0; cases hk
      · by_cases h1 : k = 1
        · subst h1; cases hk
        · simp [upd, h0, h1, h2, init, create, Op.subject] at hk
  · rintro ⟨f, k, hm⟩; simp [breakItTrace] at hm

end Verif.Props.FutLive
