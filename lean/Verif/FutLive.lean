import Verif.Fair
import Verif.Props.Future

/-!
# Fair executions of the machine of futures and promises (`Verif/Future.lean`)
-/

namespace Verif.Fut

variable {V E : Type}

/-- The call a fiber is in and the result it works on. -/
def opAt : Pc V E → Option (Op V E × Sid)
  | .idle => none
  | .set op _ i _ _ | .owner op i | .notify op _ i | .enter op _ i | .enq op _ i | .waiting op _ i _ | .unlink op _ i _ | .last op _ i => some (op, i)

theorem sid_of_opAt {p : Pc V E} {op : Op V E} {i : Sid} (h : opAt p = some (op, i)) : p.sid = some i := by
  cases p <;> simp_all [opAt, Pc.sid]

/-- How many steps are left when the result is ready. -/
def rank : Pc V E → Nat
  | .idle => 0
  | .set _ _ _ _ a => if a then 7 else 6
  | .owner _ _ => 6
  | .notify _ _ _ => 1
  | .enq _ _ _ => 5
  | .waiting _ _ _ _ => 4
  | .unlink _ _ _ _ => 3
  | .last _ _ _ => 2
  | .enter _ _ _ => 2

theorem finish_ret {s s' : State V E} {f : Fid} {op : Op V E} {u : Use} {i : Sid} {r : Res V E} {q o : List (Obs V E)}
    (hs : finish s f op u i r q = some (s', o)) : Obs.ret f op (some i) r s.now ∈ o := by
  cases u <;> simp only [finish, Option.some.injEq, Prod.mk.injEq] at hs <;> obtain ⟨rfl, rfl⟩ := hs <;> simp

/-- What a fiber does when it runs. -/
theorem run_eq {s : State V E} (hc : Core s none) {f : Fid} {op : Op V E} {i : Sid} (h : opAt (s.pc f) = some (op, i)) :
    step false s (.run f) = runLive s f := by
  have hi := sid_of_opAt h
  simp only [step, run, hi, if_pos (hc.sid_live hi)]

/-- A call goes on until it returns. -/
theorem run_in {s s' : State V E} (hc : Core s none) {f : Fid} {op : Op V E} {i : Sid} {o : List (Obs V E)} (h : opAt (s.pc f) = some (op, i))
    (hs : step false s (.run f) = some (s', o)) : opAt (s'.pc f) = some (op, i) ∨ ∃ x t, Obs.ret f op (some i) x t ∈ o := by
  rw [run_eq hc h] at hs
  unfold runLive at hs
  split at hs <;> rename_i hp <;> rw [hp] at h <;> simp only [opAt, Option.some.injEq, Prod.mk.injEq, reduceCtorEq] at h
  all_goals obtain ⟨rfl, rfl⟩ := h
  all_goals (repeat' split at hs)
  all_goals first
    | exact .inr ⟨_, _, finish_ret hs⟩
    | (simp only [Option.some.injEq, Prod.mk.injEq] at hs; obtain ⟨rfl, rfl⟩ := hs; left; simp [opAt])
    | (cases hs)

/-- When the result is ready and nobody holds the spinlock, whoever is not asleep can go on. -/
theorem ready_enabled {s : State V E} (hc : Core s none) {f : Fid} {op : Op V E} {i : Sid} (h : opAt (s.pc f) = some (op, i))
    (hres : s.res i ≠ none) (hl : s.splk i = none) (hw : ∀ op u ep, s.pc f = .waiting op u i ep → s.c.ready f = true) :
    step false s (.run f) ≠ none := by
  rw [run_eq hc h]
  obtain ⟨out, ho⟩ := Option.ne_none_iff_exists'.1 hres
  cases hp : s.pc f <;> rw [hp] at h <;> simp only [opAt, Option.some.injEq, Prod.mk.injEq, reduceCtorEq] at h
  all_goals obtain ⟨rfl, rfl⟩ := h
  all_goals simp only [runLive, hp, ho, hl]
  · split
    · simp
    · exact Verif.Fut.finish_some
  · exact Verif.Fut.finish_some
  · simp [Verif.Fut.finish_some]
  · exact Verif.Fut.finish_some
  · simp
  · rw [hw _ _ _ hp]; simp; split
    · simp
    · split <;> simp
  · simp
  · exact Verif.Fut.finish_some

/-- When the result is ready, every step brings a call closer to its end. -/
theorem ready_run {s s' : State V E} (hc : Core s none) {f : Fid} {op : Op V E} {i : Sid} {o : List (Obs V E)} (h : opAt (s.pc f) = some (op, i))
    (hres : s.res i ≠ none) (hs : step false s (.run f) = some (s', o)) :
    (opAt (s'.pc f) = some (op, i) ∧ rank (s'.pc f) < rank (s.pc f)) ∨ ∃ x t, Obs.ret f op (some i) x t ∈ o := by
  rw [run_eq hc h] at hs
  obtain ⟨out, ho⟩ := Option.ne_none_iff_exists'.1 hres
  unfold runLive at hs
  split at hs <;> rename_i hp <;> rw [hp] at h <;> simp only [opAt, Option.some.injEq, Prod.mk.injEq, reduceCtorEq] at h
  all_goals obtain ⟨rfl, rfl⟩ := h
  all_goals (try simp only [ho] at hs)
  all_goals (repeat' split at hs)
  all_goals first
    | exact .inr ⟨_, _, finish_ret hs⟩
    | (simp only [Option.some.injEq, Prod.mk.injEq] at hs; obtain ⟨rfl, rfl⟩ := hs; left; simp [opAt, hp, rank, *])
    | (cases hs)

/-- What a step does to the place of a fiber, to results, spinlocks and wake-ups. -/
theorem others {s s' : State V E} {e : Event V E} {o : List (Obs V E)} (hc : Core s none) (hw : WI s) (hs : step false s e = some (s', o)) :
    (∀ k, s.pc k ≠ .idle → e ≠ .run k → s'.pc k = s.pc k) ∧ (∀ i out, s.res i = some out → s'.res i = some out) ∧
      (∀ i, s.res i ≠ none → s'.splk i = s.splk i ∨ s'.splk i = none) ∧
      (∀ k, s.pc k ≠ .idle → e ≠ .run k → s.c.ready k = true → s'.c.ready k = true) ∧ s.now ≤ s'.now := by
  cases e with
  | call f op =>
    simp only [step] at hs
    split at hs <;> try (simp only [reduceCtorEq] at hs; done)
    rename_i hf
    have hid := idle_of_sid hf
    split at hs
    · simp at hs
    · rename_i s2 o2 h2
      simp only [Option.some.injEq, Prod.mk.injEq] at hs
      obtain ⟨rfl, rfl⟩ := hs
      obtain ⟨e1, e2, e3, e4, e5, e6⟩ := call_wait h2
      refine ⟨fun k hk _ => ?_, fun i out h => by rw [e5]; exact h, fun i _ => .inl (by rw [e4]), fun k _ _ h => by rw [e1]; exact h, by omega⟩
      rcases e6 with e6 | ⟨p, e6, hp⟩
      · rw [e6]
      · rw [e6, upd_other]
        rintro rfl; exact hk hid
  | run f =>
    simp only [step, run] at hs
    split at hs
    · cases hs
    · rename_i i0 hsid
      rw [if_pos (hc.sid_live hsid)] at hs
      have hfin : ∀ {s1 : State V E} {op : Op V E} {u : Use} {i : Sid} {r : Res V E} {q : List (Obs V E)}, finish s1 f op u i r q = some (s', o) →
          s1.pc = s.pc → s1.res = s.res → s1.splk = s.splk → s1.now = s.now → (∀ k, s.c.ready k = true → s1.c.ready k = true) →
          (∀ k, s.pc k ≠ .idle → Event.run f ≠ (.run k : Event V E) → s'.pc k = s.pc k) ∧ (∀ i out, s.res i = some out → s'.res i = some out) ∧
          (∀ i, s.res i ≠ none → s'.splk i = s.splk i ∨ s'.splk i = none) ∧
          (∀ k, s.pc k ≠ .idle → Event.run f ≠ (.run k : Event V E) → s.c.ready k = true → s'.c.ready k = true) ∧ s.now ≤ s'.now := by
        intro s1 op u i r q h1 h2 h3 h4 h5 h6
        obtain ⟨e1, e2, e3, e4, e5, e6⟩ := finish_wait h1
        refine ⟨fun k hk hne => ?_, fun i out h => by rw [e5, h3]; exact h, fun i _ => .inl (by rw [e4, h4]), fun k _ _ h => by rw [e1]; exact h6 k h, by omega⟩
        rw [e6, upd_other, h2]
        rintro rfl; exact hne rfl
      unfold runLive at hs
      split at hs <;> rename_i hp
      · cases hs
      · split at hs
        · split at hs
          · simp only [Option.some.injEq, Prod.mk.injEq] at hs
            obtain ⟨rfl, rfl⟩ := hs
            simp only [upd_apply]; grind
          · exact hfin hs rfl rfl rfl rfl (fun _ h => h)
        · simp only [Option.some.injEq, Prod.mk.injEq] at hs
          obtain ⟨rfl, rfl⟩ := hs
          simp only [upd_apply]; grind
      · split at hs
        · exact hfin hs rfl rfl rfl rfl (fun _ h => h)
        · simp only [Option.some.injEq, Prod.mk.injEq] at hs
          obtain ⟨rfl, rfl⟩ := hs
          simp only [upd_apply]; grind
      · split at hs
        · refine hfin hs rfl rfl rfl rfl (fun k h => ?_)
          simp only [hw.w.ready_notifyAll, h, Bool.true_or]
        · cases hs
      · split at hs
        · exact hfin hs rfl rfl rfl rfl (fun _ h => h)
        · split at hs
          · simp only [Option.some.injEq, Prod.mk.injEq] at hs
            obtain ⟨rfl, rfl⟩ := hs
            simp only [upd_apply]; grind
          · cases hs
      · simp only [Option.some.injEq, Prod.mk.injEq] at hs
        obtain ⟨rfl, rfl⟩ := hs
        simp only [upd_apply, enqueue, createWaker]; grind
      · split at hs
        · split at hs
          · simp only [Option.some.injEq, Prod.mk.injEq] at hs
            obtain ⟨rfl, rfl⟩ := hs
            simp only [upd_apply, consumeReady]; grind
          · split at hs <;> simp only [Option.some.injEq, Prod.mk.injEq] at hs <;>
            obtain ⟨rfl, rfl⟩ := hs <;> simp only [upd_apply, consumeReady] <;> grind
        · cases hs
      · split at hs
        · simp only [Option.some.injEq, Prod.mk.injEq] at hs
          obtain ⟨rfl, rfl⟩ := hs
          simp only [upd_apply]; grind
        · cases hs
      · split at hs <;> exact hfin hs rfl rfl rfl rfl (fun _ h => h)
  | timer f =>
    simp only [step] at hs
    (repeat' split at hs) <;> (try (simp only [reduceCtorEq] at hs; done))
    simp only [Option.some.injEq, Prod.mk.injEq] at hs
    obtain ⟨rfl, rfl⟩ := hs
    refine ⟨fun _ _ _ => rfl, fun _ _ h => h, fun _ _ => .inl rfl, fun k _ _ h => ?_, Nat.le_refl _⟩
    simp only [wake]
    split
    · simp only [upd_apply]; split <;> simp_all
    · exact h
  | tick n =>
    simp only [step, Option.some.injEq, Prod.mk.injEq] at hs
    obtain ⟨rfl, rfl⟩ := hs
    exact ⟨fun _ _ _ => rfl, fun _ _ h => h, fun _ _ => .inl rfl, fun k _ _ h => h, by simp⟩
  | elsewhere f n =>
    simp only [step] at hs
    split at hs <;> try (simp only [reduceCtorEq] at hs; done)
    simp only [Option.some.injEq, Prod.mk.injEq] at hs
    obtain ⟨rfl, rfl⟩ := hs
    exact ⟨fun _ _ _ => rfl, fun _ _ h => h, fun _ _ => .inl rfl, fun k _ _ h => h, Nat.le_refl _⟩

variable {r : Run (step (V := V) (E := E) false) init}

theorem at_step (r : Run (step (V := V) (E := E) false) init) (i : Nat) :
    (∀ k, (r.st i).pc k ≠ .idle → r.ev i ≠ .run k → (r.st (i + 1)).pc k = (r.st i).pc k) ∧
      (∀ x out, (r.st i).res x = some out → (r.st (i + 1)).res x = some out) ∧
      (∀ x, (r.st i).res x ≠ none → (r.st (i + 1)).splk x = (r.st i).splk x ∨ (r.st (i + 1)).splk x = none) ∧
      (∀ k, (r.st i).pc k ≠ .idle → r.ev i ≠ .run k → (r.st i).c.ready k = true → (r.st (i + 1)).c.ready k = true) ∧ (r.st i).now ≤ (r.st (i + 1)).now :=
  others (reach_core (r.reach i)) (reach_wi (r.reach i)) (r.next i)

theorem res_le {i j : Nat} (hij : i ≤ j) {x : Sid} (h : (r.st i).res x ≠ none) : (r.st j).res x ≠ none := by
  obtain ⟨d, rfl⟩ := Nat.le.dest hij
  clear hij
  induction d with
  | zero => exact h
  | succ d ih =>
    obtain ⟨out, ho⟩ := Option.ne_none_iff_exists'.1 ih
    rw [← Nat.add_assoc, (at_step r (i + d)).2.1 x out ho]; simp

/-- A call stays under way until it returns. -/
theorem stays {i : Nat} {f : Fid} {op : Op V E} {x : Sid} (h : opAt ((r.st i).pc f) = some (op, x)) :
    opAt ((r.st (i + 1)).pc f) = some (op, x) ∨ ∃ y t, Obs.ret f op (some x) y t ∈ r.ob i := by
  by_cases he : r.ev i = .run f
  · have hn := r.next i
    rw [he] at hn
    exact run_in (reach_core (r.reach i)) h hn
  · left
    rw [(at_step r i).1 f (by intro h'; rw [h'] at h; cases h) he]; exact h

/-- Who holds the spinlock gives it back. -/
theorem splk_free (hf : r.Fair Event.run) (i : Nat) (x : Sid) : ∃ j, i ≤ j ∧ (r.st j).splk x = none := by
  cases hl : (r.st i).splk x with
  | none => exact ⟨i, Nat.le_refl _, hl⟩
  | some k =>
    obtain ⟨op, u, hp⟩ := ((reach_wi (r.reach i)).sp x k).1 hl
    obtain ⟨j, hj, h1, h2⟩ := r.leads hf (f := k) (P := fun j => (r.st j).pc k = .enq op u x) hp
      (fun j _ h1 h2 => by rw [(at_step r j).1 k (by rw [h1]; simp) h2]; exact h1)
      (fun j h1 => by
        rw [run_eq (reach_core (r.reach j)) (f := k) (op := op) (i := x) (by rw [h1]; rfl)]
        simp [runLive, h1])
    refine ⟨j + 1, by omega, ?_⟩
    have hn := r.next j
    rw [h2, run_eq (reach_core (r.reach j)) (f := k) (op := op) (i := x) (by rw [h1]; rfl)] at hn
    simp only [runLive, h1, Option.some.injEq, Prod.mk.injEq] at hn
    rw [← hn.1]; simp

/-- Once a result is ready its spinlock is free for ever, soon. -/
theorem splk_free_ever (hf : r.Fair Event.run) {i : Nat} {x : Sid} (h : (r.st i).res x ≠ none) : ∃ j, i ≤ j ∧ ∀ k, j ≤ k → (r.st k).splk x = none := by
  obtain ⟨j, hj, hl⟩ := splk_free hf i x
  refine ⟨j, hj, fun k hk => ?_⟩
  obtain ⟨d, rfl⟩ := Nat.le.dest hk
  clear hk
  induction d with
  | zero => exact hl
  | succ d ih =>
    rcases (at_step r (j + d)).2.2.1 x (res_le (by omega) h) with h1 | h1
    · rw [← Nat.add_assoc, h1]; exact ih
    · exact h1

/-- Whoever waits for a result that is ready is woken. -/
theorem woken (hf : r.Fair Event.run) {i : Nat} {f : Fid} {op : Op V E} {u : Use} {x : Sid} {ep : Nat} (hres : (r.st i).res x ≠ none)
    (hl : ∀ k, i ≤ k → (r.st k).splk x = none) (hp : (r.st i).pc f = .waiting op u x ep) :
    ∃ j, i ≤ j ∧ (r.st j).pc f = .waiting op u x ep ∧ (r.st j).c.ready f = true := by
  refine Classical.byContradiction fun hno => ?_
  have hst : ∀ d, (r.st (i + d)).pc f = .waiting op u x ep := by
    intro d
    induction d with
    | zero => exact hp
    | succ d ih =>
      rw [← Nat.add_assoc, (at_step r (i + d)).1 f (by rw [ih]; simp)]
      · exact ih
      · intro he
        have hn := r.next (i + d)
        rw [he, run_eq (reach_core (r.reach (i + d))) (f := f) (op := op) (i := x) (by rw [ih]; rfl)] at hn
        simp only [runLive, ih] at hn
        split at hn
        · rename_i hrd; exact hno ⟨i + d, by omega, ih, hrd⟩
        · cases hn
  have hrd : (r.st i).c.ready f = false := by
    cases h : (r.st i).c.ready f with
    | false => rfl
    | true => exact absurd ⟨i, Nat.le_refl _, hp, h⟩ hno
  obtain ⟨g, op', u', hg⟩ := (reach_wi (r.reach i)).pend f x (.inr ⟨⟨op, u, ep, hp⟩, hrd⟩) hres
  obtain ⟨j, hj, ⟨h0, h1⟩, h2⟩ := r.leads hf (f := g) (P := fun j => i ≤ j ∧ (r.st j).pc g = .notify op' u' x) ⟨Nat.le_refl _, hg⟩
      (fun j _ h1 h2 => ⟨by omega, by rw [(at_step r j).1 g (by rw [h1.2]; simp) h2]; exact h1.2⟩)
      (fun j h1 => ready_enabled (reach_core (r.reach j)) (f := g) (op := op') (i := x) (by rw [h1.2]; rfl) (res_le h1.1 hres) (hl j h1.1)
        (fun op u ep h => by rw [h1.2] at h; cases h))
  have hn := r.next j
  rw [h2] at hn
  have h3 := (notification_releases_all (r.reach j) h1 hn).1 f op u ep (by
    have := hst (j + 1 - i)
    rwa [show i + (j + 1 - i) = j + 1 by omega] at this)
  have := hst (j + 1 - i)
  rw [show i + (j + 1 - i) = j + 1 by omega] at this
  exact hno ⟨j + 1, by omega, this, h3⟩

/-- Every call about a result that is ready comes to its end. -/
theorem ready_returns (hf : r.Fair Event.run) {i : Nat} {x : Sid} (hres : (r.st i).res x ≠ none) (hl : ∀ k, i ≤ k → (r.st k).splk x = none) :
    ∀ n j f op, i ≤ j → opAt ((r.st j).pc f) = some (op, x) → rank ((r.st j).pc f) ≤ n → ∃ k, j ≤ k ∧ ∃ y t, Obs.ret f op (some x) y t ∈ r.ob k := by
  intro n
  induction n with
  | zero =>
    intro j f op _ h h0
    cases hp : (r.st j).pc f <;> rw [hp] at h h0 <;> simp [opAt, rank] at h h0
    split at h0 <;> omega
  | succ n ih =>
    intro j f op hj h hn
    -- either it is asleep and is woken, or it can go on
    have main : ∀ j, i ≤ j → opAt ((r.st j).pc f) = some (op, x) → rank ((r.st j).pc f) ≤ n + 1 →
        (∀ op u ep, (r.st j).pc f = .waiting op u x ep → (r.st j).c.ready f = true) → ∃ k, j ≤ k ∧ ∃ y t, Obs.ret f op (some x) y t ∈ r.ob k := by
      intro j hj h hn hrd
      obtain ⟨k, hk, ⟨h0, h1, h2⟩, he⟩ := r.leads hf (f := f)
        (P := fun k => i ≤ k ∧ (r.st k).pc f = (r.st j).pc f ∧ ∀ op u ep, (r.st k).pc f = .waiting op u x ep → (r.st k).c.ready f = true) ⟨hj, rfl, hrd⟩
        (fun k hk ⟨h0, h1, h2⟩ he => by
          have hne : (r.st k).pc f ≠ .idle := by rw [h1]; intro h'; rw [h'] at h; cases h
          have h3 := (at_step r k).1 f hne he
          refine ⟨by omega, by rw [h3]; exact h1, fun op u ep h4 => ?_⟩
          rw [h3] at h4
          exact (at_step r k).2.2.2.1 f hne he (h2 op u ep h4))
        (fun k ⟨h0, h1, h2⟩ => ready_enabled (reach_core (r.reach k)) (f := f) (op := op) (i := x) (by rw [h1]; exact h) (res_le h0 hres) (hl k h0) h2)
      have hn' := r.next k
      rw [he] at hn'
      rcases ready_run (reach_core (r.reach k)) (f := f) (op := op) (i := x) (by rw [h1]; exact h) (res_le h0 hres) hn' with ⟨h3, h4⟩ | h3
      · rw [h1] at h4
        obtain ⟨m, hm, h5⟩ := ih (k + 1) f op (by omega) h3 (by omega)
        exact ⟨m, by omega, h5⟩
      · exact ⟨k, hk, h3⟩
    by_cases hw : ∃ op' u ep, (r.st j).pc f = .waiting op' u x ep
    · obtain ⟨op', u, ep, hp⟩ := hw
      obtain ⟨k, hk, h1, h2⟩ := woken hf (res_le hj hres) (fun k hk => hl k (by omega)) hp
      obtain ⟨m, hm, h3⟩ := main k (by omega) (by rw [h1, ← hp]; exact h) (by rw [h1, ← hp]; exact hn) (fun _ _ _ _ => h2)
      exact ⟨m, by omega, h3⟩
    · exact main j hj h hn (fun op' u ep h' => absurd ⟨op', u, ep, h'⟩ hw)

theorem call_returns (hf : r.Fair Event.run) {i m : Nat} {f : Fid} {op : Op V E} {x : Sid} (h : opAt ((r.st i).pc f) = some (op, x))
    (hres : (r.st m).res x ≠ none) : ∃ k, i ≤ k ∧ ∃ y t, Obs.ret f op (some x) y t ∈ r.ob k := by
  refine Classical.byContradiction fun hno => ?_
  have hin : ∀ d, opAt ((r.st (i + d)).pc f) = some (op, x) := by
    intro d
    induction d with
    | zero => exact h
    | succ d ih =>
      rcases stays ih with h1 | h1
      · exact h1
      · exact absurd ⟨i + d, by omega, h1⟩ hno
  obtain ⟨T, hT, hl⟩ := splk_free_ever hf hres
  obtain ⟨k, hk, h1⟩ := ready_returns hf (res_le hT hres) hl _ (i + T) f op (by omega) (hin T) (Nat.le_refl _)
  exact hno ⟨k, by omega, h1⟩

/-- A call that makes the result ready does so. -/
theorem makes_ready (hf : r.Fair Event.run) {i : Nat} {f : Fid} {x : Sid}
    (h : (∃ op k out a, (r.st i).pc f = .set op k x out a) ∨ ∃ op, (r.st i).pc f = .owner op x) : ∃ j, i ≤ j ∧ (r.st j).res x ≠ none := by
  have hne : (r.st i).pc f ≠ .idle := by rcases h with ⟨_, _, _, _, h⟩ | ⟨_, h⟩ <;> rw [h] <;> simp
  have hop : ∃ op, opAt ((r.st i).pc f) = some (op, x) := by rcases h with ⟨op, _, _, _, h⟩ | ⟨op, h⟩ <;> exact ⟨op, by rw [h]; rfl⟩
  obtain ⟨op0, hop⟩ := hop
  obtain ⟨j, hj, h1, h2⟩ := r.leads hf (f := f) (P := fun j => (r.st j).pc f = (r.st i).pc f) rfl
      (fun j _ h1 h2 => by rw [(at_step r j).1 f (by rw [h1]; exact hne) h2]; exact h1)
      (fun j h1 => by
        rw [run_eq (reach_core (r.reach j)) (f := f) (op := op0) (i := x) (by rw [h1]; exact hop)]
        rcases h with ⟨op, k, out, a, h⟩ | ⟨op, h⟩
        · simp only [runLive, h1, h]
          split
          · split
            · simp
            · exact Verif.Fut.finish_some
          · simp
        · simp only [runLive, h1, h]
          split
          · exact Verif.Fut.finish_some
          · simp)
  cases hr : (r.st j).res x with
  | some out => exact ⟨j, hj, by simp [hr]⟩
  | none =>
    refine ⟨j + 1, by omega, ?_⟩
    have hn := r.next j
    rw [h2, run_eq (reach_core (r.reach j)) (f := f) (op := op0) (i := x) (by rw [h1]; exact hop)] at hn
    rcases h with ⟨op, k, out, a, h⟩ | ⟨op, h⟩
    · simp only [runLive, h1, h, hr, Option.some.injEq, Prod.mk.injEq] at hn
      rw [← hn.1]; simp
    · simp only [runLive, h1, h, hr, Option.some.injEq, Prod.mk.injEq] at hn
      rw [← hn.1]; simp

/-- A call is over at once or has begun. -/
def Begun (s s' : State V E) (f : Fid) (op : Op V E) (o : List (Obs V E)) : Prop :=
  (∃ y t, Obs.ret f op (sidOf s op) y t ∈ o) ∨ ∃ j, sidOf s op = some j ∧ opAt (s'.pc f) = some (op, j) ∧
    (waits op = true ∨ (∃ op' k out a, s'.pc f = .set op' k j out a) ∨ ∃ op', s'.pc f = .owner op' j)

theorem call_begun {s s' : State V E} {f : Fid} {op : Op V E} {o : List (Obs V E)} (hs : call false s f op = some (s', o)) : Begun s s' f op o := by
  have hret : ∀ {s2 : State V E} {x : Option Sid} {y : Res V E} {q : List (Obs V E)}, ret s2 f op x y q = some (s', o) → x = sidOf s op → Begun s s' f op o := by
    intro s2 x y q h1 h2
    simp only [ret, Option.some.injEq, Prod.mk.injEq] at h1
    obtain ⟨rfl, rfl⟩ := h1
    exact .inl ⟨y, s2.now, by simp [h2]⟩
  have hdis : ∀ {s2 : State V E} {x : Option Sid} {y : Handle} {o' q : List (Obs V E)}, discard s2 f op x y = some (s', o') → o = q ++ o' → x = sidOf s op → x = y.st →
      Begun s s' f op o := by
    intro s2 x y o' q h1 hq h2 h3
    simp only [discard] at h1
    split at h1
    · simp only [ret, Option.some.injEq, Prod.mk.injEq] at h1
      obtain ⟨rfl, rfl⟩ := h1
      exact .inl ⟨.ok, s2.now, by simp [hq, h2]⟩
    · rename_i j hj
      split at h1
      · simp only [Option.some.injEq, Prod.mk.injEq] at h1
        obtain ⟨rfl, rfl⟩ := h1
        exact .inr ⟨j, by rw [← h2, h3, hj], by simp [opAt], .inr (.inr ⟨op, by simp⟩)⟩
      · simp only [ret, Option.some.injEq, Prod.mk.injEq] at h1
        obtain ⟨rfl, rfl⟩ := h1
        exact .inl ⟨.ok, (release s2 j).1.now, by rw [hq, h2]; simp⟩
  simp only [call] at hs
  split at hs
  · split at hs
    · exact hret hs rfl
    · exact hret hs rfl
    · split at hs
      · simp at hs
      · rename_i hx _; exact hret hs (by simp only [Op.subject] at hx; simp [sidOf, Op.subject, hx])
    · simp at hs
  · rename_i x hx
    have hx' : (s.hd op.subject).bind Handle.st = x.st := by rw [hx]; rfl
    unfold callOn at hs
    cases op with
    | mkPromise | mkTask | mkEmpty => simp at hs
    | copyAssign a h' =>
      simp only at hs
      split at hs
      · rename_i he
        simp only [Op.subject] at hx' he; subst he
        exact hret hs (by simp [sidOf, hx'])
      · split at hs
        · simp at hs
        · rename_i y hy
          split at hs <;> try (simp only [reduceCtorEq] at hs; done)
          split at hs
          · exact hdis (q := []) hs rfl (by simp [sidOf, hy]) rfl
          · split at hs
            · simp at hs
            · rename_i hd
              simp only [Option.some.injEq, Prod.mk.injEq] at hs
              obtain ⟨rfl, rfl⟩ := hs
              exact hdis hd rfl (by simp [sidOf, hy]) rfl
    | moveAssign a h' =>
      simp only at hs
      split at hs
      · rename_i he
        simp only [Op.subject] at hx' he; subst he
        exact hret hs (by simp [sidOf, hx'])
      · split at hs
        · simp at hs
        · rename_i y hy
          split at hs <;> try (simp only [reduceCtorEq] at hs; done)
          exact hdis (q := []) hs rfl (by simp [sidOf, hy]) rfl
    | destroy a =>
      simp only at hs
      split at hs
      · exact hdis (q := []) hs rfl (by simp [sidOf, hx']) rfl
      · cases hs
    | _ =>
      simp only at hs
      repeat' split at hs
      all_goals first
        | (simp only [reduceCtorEq] at hs; done)
        | exact hret hs (by simp only [sidOf, hx'])
        | (simp only [start, Option.some.injEq, Prod.mk.injEq] at hs
           obtain ⟨rfl, rfl⟩ := hs
           exact .inr ⟨_, by simp only [sidOf, hx']; assumption, by simp [opAt], by simp [waits]⟩)

/-! ## Deadlines -/

theorem now_le {i j : Nat} (hij : i ≤ j) : (r.st i).now ≤ (r.st j).now := by
  obtain ⟨d, rfl⟩ := Nat.le.dest hij
  clear hij
  induction d with
  | zero => exact Nat.le_refl _
  | succ d ih => exact Nat.le_trans ih (at_step r (i + d)).2.2.2.2

/-- How many steps are left when the deadline has passed. -/
def lateRank : Pc V E → Nat
  | .idle => 0
  | .set _ _ _ _ a => if a then 7 else 6
  | .owner _ _ => 6
  | .notify _ _ _ => 1
  | .enter _ _ _ => 6
  | .enq _ _ _ => 5
  | .waiting _ _ _ _ => 4
  | .unlink _ _ _ _ => 3
  | .last _ _ _ => 2

/-- When the deadline has passed, every step brings a call closer to its end. -/
theorem late_run {s s' : State V E} (hc : Core s none) {f : Fid} {op : Op V E} {i : Sid} {o : List (Obs V E)} {d : Nat}
    (h : opAt (s.pc f) = some (op, i)) (hd : op.dl = some d) (hnow : d ≤ s.now) (hs : step false s (.run f) = some (s', o)) :
    (opAt (s'.pc f) = some (op, i) ∧ lateRank (s'.pc f) < lateRank (s.pc f)) ∨ ∃ x t, Obs.ret f op (some i) x t ∈ o := by
  rw [run_eq hc h] at hs
  unfold runLive at hs
  split at hs <;> rename_i hp <;> rw [hp] at h <;> simp only [opAt, Option.some.injEq, Prod.mk.injEq, reduceCtorEq] at h
  all_goals obtain ⟨rfl, rfl⟩ := h
  all_goals (try simp only [hd, show ¬ s.now < d by omega, if_false] at hs)
  all_goals (repeat' split at hs)
  all_goals first
    | exact .inr ⟨_, _, finish_ret hs⟩
    | (simp only [Option.some.injEq, Prod.mk.injEq] at hs; obtain ⟨rfl, rfl⟩ := hs; left; simp [opAt, hp, lateRank, *]; done)
    | (simp only [Option.some.injEq, Prod.mk.injEq] at hs; obtain ⟨rfl, rfl⟩ := hs; left; simp [opAt, hp, lateRank]; split <;> simp; done)
    | (cases hs)

/-- When nobody holds the spinlock, whoever is not asleep can go on. -/
theorem late_enabled {s : State V E} (hc : Core s none) {f : Fid} {op : Op V E} {i : Sid} (h : opAt (s.pc f) = some (op, i))
    (hl : s.splk i = none) (hw : ∀ op u ep, s.pc f = .waiting op u i ep → s.c.ready f = true) : step false s (.run f) ≠ none := by
  rw [run_eq hc h]
  cases hp : s.pc f <;> rw [hp] at h <;> simp only [opAt, Option.some.injEq, Prod.mk.injEq, reduceCtorEq] at h
  all_goals obtain ⟨rfl, rfl⟩ := h
  all_goals simp only [runLive, hp, hl]
  · split
    · split
      · simp
      · exact Verif.Fut.finish_some
    · simp
  · split
    · exact Verif.Fut.finish_some
    · simp
  · simp [Verif.Fut.finish_some]
  · split
    · exact Verif.Fut.finish_some
    · simp
  · simp
  · rw [hw _ _ _ hp]; simp; split
    · simp
    · split <;> simp
  · simp
  · split <;> exact Verif.Fut.finish_some

/-- Whoever waits with a deadline that has passed is woken. -/
theorem late_woken (ht : r.Fair Event.timer) {i : Nat} {f : Fid} {op : Op V E} {u : Use} {x : Sid} {ep d : Nat} (hd : op.dl = some d)
    (hnow : d ≤ (r.st i).now) (hp : (r.st i).pc f = .waiting op u x ep) :
    ∃ j, i ≤ j ∧ (r.st j).pc f = .waiting op u x ep ∧ (r.st j).c.ready f = true := by
  refine Classical.byContradiction fun hno => ?_
  have hst : ∀ d, (r.st (i + d)).pc f = .waiting op u x ep := by
    intro d
    induction d with
    | zero => exact hp
    | succ d ih =>
      rw [← Nat.add_assoc, (at_step r (i + d)).1 f (by rw [ih]; simp)]
      · exact ih
      · intro he
        have hn := r.next (i + d)
        rw [he, run_eq (reach_core (r.reach (i + d))) (f := f) (op := op) (i := x) (by rw [ih]; rfl)] at hn
        simp only [runLive, ih] at hn
        split at hn
        · rename_i hrd; exact hno ⟨i + d, by omega, ih, hrd⟩
        · cases hn
  obtain ⟨j, hj, h1, h2⟩ := r.leads ht (f := f) (P := fun j => i ≤ j ∧ (r.st j).pc f = .waiting op u x ep) ⟨Nat.le_refl _, hp⟩
    (fun j _ h1 _ => ⟨by omega, by have := hst (j + 1 - i); rwa [show i + (j + 1 - i) = j + 1 by omega] at this⟩)
    (fun j h1 => by
      have := now_le (r := r) h1.1
      simp [step, h1.2, hd, show d ≤ (r.st j).now by omega])
  have hn := r.next j
  have hle := now_le (r := r) hj
  rw [h2] at hn
  simp only [step, h1.2, hd, show d ≤ (r.st j).now by omega, if_true, Option.some.injEq, Prod.mk.injEq] at hn
  have h3 := hst (j + 1 - i)
  rw [show i + (j + 1 - i) = j + 1 by omega] at h3
  refine hno ⟨j + 1, by omega, h3, ?_⟩
  rw [← hn.1]
  have hrd := (reach_wi (r.reach j)).w.not_ready_iff (f := f) (r := ⟨x, ep, op.dl, false⟩) (by simp [h1.2, regOf]) rfl
  simp only [wake]
  split
  · simp
  · rename_i hne
    cases hr : (r.st j).c.ready f with
    | true => rfl
    | false => exact absurd (hrd.1 hr) (by simpa using hne)

/-- A call with a deadline that has passed comes to its end. -/
theorem late_returns (hf : r.Strong Event.run) (ht : r.Fair Event.timer) {i : Nat} {x : Sid} {f : Fid} {op : Op V E} {d : Nat} (hd : op.dl = some d)
    (hnow : d ≤ (r.st i).now) : ∀ n j, i ≤ j → opAt ((r.st j).pc f) = some (op, x) → lateRank ((r.st j).pc f) ≤ n →
      ∃ k, j ≤ k ∧ ∃ y t, Obs.ret f op (some x) y t ∈ r.ob k := by
  intro n
  induction n with
  | zero =>
    intro j _ h h0
    cases hp : (r.st j).pc f <;> rw [hp] at h h0 <;> simp [opAt, lateRank] at h h0
    split at h0 <;> omega
  | succ n ih =>
    intro j hj h hn
    have main : ∀ j, i ≤ j → opAt ((r.st j).pc f) = some (op, x) → lateRank ((r.st j).pc f) ≤ n + 1 →
        (∀ op u ep, (r.st j).pc f = .waiting op u x ep → (r.st j).c.ready f = true) → ∃ k, j ≤ k ∧ ∃ y t, Obs.ret f op (some x) y t ∈ r.ob k := by
      intro j hj h hn hrd
      obtain ⟨k, hk, ⟨h0, h1, h2⟩, he⟩ := r.leads_strong hf (f := f)
        (P := fun k => i ≤ k ∧ (r.st k).pc f = (r.st j).pc f ∧ ∀ op u ep, (r.st k).pc f = .waiting op u x ep → (r.st k).c.ready f = true) ⟨hj, rfl, hrd⟩
        (fun k hk ⟨h0, h1, h2⟩ he => by
          have hne : (r.st k).pc f ≠ .idle := by rw [h1]; intro h'; rw [h'] at h; cases h
          have h3 := (at_step r k).1 f hne he
          refine ⟨by omega, by rw [h3]; exact h1, fun op u ep h4 => ?_⟩
          rw [h3] at h4
          exact (at_step r k).2.2.2.1 f hne he (h2 op u ep h4))
        (fun k hk => by
          obtain ⟨m, hm, hl⟩ := splk_free hf.fair k x
          exact ⟨m, hm, fun ⟨h0, h1, h2⟩ => late_enabled (reach_core (r.reach m)) (f := f) (op := op) (i := x) (by rw [h1]; exact h) hl h2⟩)
      have hn' := r.next k
      rw [he] at hn'
      rcases late_run (reach_core (r.reach k)) (f := f) (op := op) (i := x) (by rw [h1]; exact h) hd
        (Nat.le_trans hnow (now_le (by omega))) hn' with ⟨h3, h4⟩ | h3
      · rw [h1] at h4
        obtain ⟨m, hm, h5⟩ := ih (k + 1) (by omega) h3 (by omega)
        exact ⟨m, by omega, h5⟩
      · exact ⟨k, hk, h3⟩
    by_cases hw : ∃ op' u ep, (r.st j).pc f = .waiting op' u x ep
    · obtain ⟨op', u, ep, hp⟩ := hw
      have : op' = op := by rw [hp] at h; simp [opAt] at h; exact h
      subst this
      obtain ⟨k, hk, h1, h2⟩ := late_woken ht hd (Nat.le_trans hnow (now_le hj)) hp
      obtain ⟨m, hm, h3⟩ := main k (by omega) (by rw [h1, ← hp]; exact h) (by rw [h1, ← hp]; exact hn) (fun _ _ _ _ => h2)
      exact ⟨m, by omega, h3⟩
    · exact main j hj h hn (fun op' u ep h' => absurd ⟨op', u, ep, h'⟩ hw)

end Verif.Fut
