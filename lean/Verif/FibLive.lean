import Verif.Fair
import Verif.Props.Fiber

/-!
# Fair executions of the machine of fibers and handles (`Verif/Fiber.lean`)
-/

namespace Verif.Fib

theorem release_pc (s : State) (g : Fid) : (release s g).1.pc = s.pc := by
  unfold release; (repeat' split) <;> rfl

theorem release_hd (s : State) (g : Fid) : (release s g).1.hd = s.hd := by
  unfold release; (repeat' split) <;> rfl

theorem release_main (s : State) (g : Fid) : (release s g).1.main = s.main := by
  unfold release; (repeat' split) <;> rfl

theorem release_obs (s : State) (g : Fid) : ∀ o ∈ (release s g).2, o = .freed g ∨ o = .ub g := by
  unfold release; (repeat' split) <;> simp

/-- What a call does to the place a fiber is at. -/
theorem call_pc {s s' : State} {f k : Fid} {op : Op} {o : List Obs} (hp : s.pc f = .idle) (hs : call s f op = some (s', o)) :
    s'.pc k = s.pc k ∨ (s.pc k = .unborn ∧ s'.pc k = .idle ∧ s'.main k = s.main k ∧ ∃ h, .called f (.spawn h k) (some k) ∈ o) ∨
      k = f ∧ ∃ h g, op = .join h ∧ f ≠ g ∧ o = [.called f (.join h) (some g)] ∧ (s'.pc k = .joined h g ∨ ∃ ep, s'.pc k = .waiting h g ep) := by
  cases op <;> simp only [call, ret, abort] at hs <;> (repeat' split at hs) <;>
    (try (simp only [reduceCtorEq] at hs; done)) <;> simp only [Option.some.injEq, Prod.mk.injEq] at hs <;> obtain ⟨rfl, rfl⟩ := hs <;>
    (try simp only [release_pc, upd_apply]) <;> grind

/-- What a step does to the place a fiber is at. -/
theorem pc_step {s s' : State} {e : Event} {o : List Obs} (hs : step s e = some (s', o)) (k : Fid) :
    s'.pc k = s.pc k ∨ s.pc k = .unborn ∨ (s.pc k = .idle ∧ ((∃ h g, e = .call k (.join h) ∧ k ≠ g ∧ o = [.called k (.join h) (some g)] ∧
        (s'.pc k = .joined h g ∨ ∃ ep, s'.pc k = .waiting h g ep)) ∨ e = .finish k ∧ o = [.returned k] ∧ s'.pc k = .ending)) ∨
      e = .run k ∨ (s.pc k = .gone ∧ e = .reap k ∧ s'.pc k = .reaped) := by
  unfold step at hs
  split at hs
  · cases hs
  · split at hs
    · split at hs
      · simp only [Option.some.injEq, Prod.mk.injEq] at hs; obtain ⟨rfl, rfl⟩ := hs; simp only [upd_apply]; grind
      · cases hs
    · split at hs
      · rename_i f op hp
        rcases call_pc (k := k) hp hs with h | h | ⟨rfl, h, g, rfl, h1, h2, h3⟩
        · exact .inl h
        · exact .inr (.inl h.1)
        · exact .inr (.inr (.inl ⟨hp, .inl ⟨h, g, rfl, h1, h2, h3⟩⟩))
      · cases hs
    · split at hs
      · rename_i f hp
        simp only [Option.some.injEq, Prod.mk.injEq] at hs; obtain ⟨rfl, rfl⟩ := hs; simp only [upd_apply]; grind
      · cases hs
    · rename_i f
      by_cases hk : k = f
      · subst hk; simp
      · left
        unfold run at hs
        (repeat' split at hs) <;> (try (simp only [reduceCtorEq] at hs; done)) <;> simp only [Option.some.injEq, Prod.mk.injEq] at hs <;>
          obtain ⟨rfl, rfl⟩ := hs <;> simp [release_pc, hk]
    · split at hs
      · rename_i f hp
        simp only [Option.some.injEq] at hs
        have : s' = (release { s with pc := upd s.pc f .reaped } f).1 := by rw [hs]
        rw [this, release_pc]
        simp only [upd_apply]; grind
      · cases hs
    · split at hs
      · simp only [Option.some.injEq, Prod.mk.injEq] at hs; obtain ⟨rfl, rfl⟩ := hs; exact .inl rfl
      · cases hs

variable {r : Run step init}

/-- An infinite execution is one of a program that does not call `std::terminate`. -/
theorem run_aborted (r : Run step init) (i : Nat) : (r.st i).aborted = false := by
  have := r.next i
  unfold step at this
  split at this
  · cases this
  · rename_i h; simpa using h

theorem run_over {s s' : State} {e : Event} {o : List Obs} (hs : step s e = some (s', o)) {k : Fid} (h : (s.pc k).over = true) :
    (s'.pc k).over = true := by
  rcases pc_step hs k with h1 | h1 | h1 | rfl | ⟨_, _, h1⟩
  · rw [h1]; exact h
  · rw [h1] at h; cases h
  · rw [h1.1] at h; cases h
  · unfold step at hs
    split at hs
    · cases hs
    · simp only [run] at hs
      split at hs <;> rename_i hp <;> (try (rw [hp] at h; simp [Pc.over] at h; done))
      · split at hs <;> simp only [Option.some.injEq, Prod.mk.injEq] at hs <;> obtain ⟨rfl, rfl⟩ := hs <;> simp [Pc.over]
      · cases hs
  · rw [h1]; rfl

theorem over_le {i j : Nat} (hij : i ≤ j) {k : Fid} (h : ((r.st i).pc k).over = true) : ((r.st j).pc k).over = true := by
  obtain ⟨d, rfl⟩ := Nat.le.dest hij
  clear hij
  induction d with
  | zero => exact h
  | succ d ih => exact run_over (r.next (i + d)) ih

theorem mem_tr {i : Nat} {o : Obs} (h : o ∈ r.tr i) : ∃ j, j < i ∧ o ∈ r.ob j := by
  induction i with
  | zero => simp [Run.tr] at h
  | succ i ih =>
    rcases List.mem_append.1 h with h | h
    · obtain ⟨j, h1, h2⟩ := ih h; exact ⟨j, by omega, h2⟩
    · exact ⟨i, by omega, h⟩

theorem mem_tr_of {i j : Nat} {o : Obs} (h : o ∈ r.ob i) (hij : i < j) : o ∈ r.tr j := by
  obtain ⟨t, ht⟩ := r.tr_le (show i + 1 ≤ j from hij)
  rw [ht]; simp [Run.tr, h]

/-- A fiber whose function has returned. -/
theorem done_after {i : Nat} {g : Fid} (h : .returned g ∈ r.ob i) : ((r.st (i + 1)).pc g).done = true := by
  obtain ⟨_, sim⟩ := reach_sim (r.reach (i + 1))
  rw [← sim.ret, replay_ret]; exact mem_tr_of h (by omega)

/-- A fiber whose function has returned terminates. -/
theorem terminates (hf : r.Fair Event.run) {i : Nat} {g : Fid} (h : ((r.st i).pc g).done = true) :
    ∃ j, i ≤ j ∧ ((r.st j).pc g).over = true := by
  cases hp : (r.st i).pc g <;> simp only [hp, Pc.done, Bool.false_eq_true] at h
  · obtain ⟨j, hj, h1, h2⟩ := r.leads hf (f := g) (P := fun j => (r.st j).pc g = .ending) hp
      (fun j _ h1 h2 => by
        rcases pc_step (r.next j) g with h3 | h3 | h3 | h3 | h3
        · rw [h3]; exact h1
        · rw [h3] at h1; cases h1
        · rw [h3.1] at h1; cases h1
        · exact absurd h3 h2
        · rw [h3.1] at h1; cases h1)
      (fun j h1 => by simp only [step, run_aborted, run, h1, Bool.false_eq_true, if_false]; split <;> simp)
    have hn := r.next j
    rw [h2] at hn
    simp only [step, run_aborted, run, h1] at hn
    refine ⟨j + 1, by omega, ?_⟩
    split at hn
    · cases hn
    · split at hn <;> simp only [Option.some.injEq, Prod.mk.injEq] at hn <;> rw [← hn.1] <;> simp [Pc.over]
  all_goals exact ⟨i, Nat.le_refl _, by simp [hp, Pc.over]⟩

/-- A fiber that has terminated leaves its stack. -/
theorem leaves (hf : r.Fair Event.run) {i : Nat} {g : Fid} (h : ((r.st i).pc g).over = true) :
    ∃ j, i ≤ j ∧ ((r.st j).pc g).off = true := by
  cases hp : (r.st i).pc g <;> simp only [hp, Pc.over, Bool.false_eq_true] at h
  · obtain ⟨j, hj, h1, h2⟩ := r.leads hf (f := g) (P := fun j => (r.st j).pc g = .leaving) hp
      (fun j _ h1 h2 => by
        rcases pc_step (r.next j) g with h3 | h3 | h3 | h3 | h3
        · rw [h3]; exact h1
        · rw [h3] at h1; cases h1
        · rw [h3.1] at h1; cases h1
        · exact absurd h3 h2
        · rw [h3.1] at h1; cases h1)
      (fun j h1 => by simp only [step, run_aborted, run, h1, Bool.false_eq_true, if_false]; split <;> simp)
    have hn := r.next j
    rw [h2] at hn
    simp only [step, run_aborted, run, h1] at hn
    refine ⟨j + 1, by omega, ?_⟩
    split at hn
    · cases hn
    · split at hn <;> simp only [Option.some.injEq, Prod.mk.injEq] at hn <;> rw [← hn.1] <;> simp [Pc.off]
  all_goals exact ⟨i, Nat.le_refl _, by simp [hp, Pc.off]⟩

/-- The dispatcher releases a fiber that has left its stack. -/
theorem reaped (hf : r.Fair Event.reap) {i : Nat} {g : Fid} (h : ((r.st i).pc g).off = true) :
    ∃ j, i ≤ j ∧ (r.st j).pc g = .reaped := by
  cases hp : (r.st i).pc g <;> simp only [hp, Pc.off, Bool.false_eq_true] at h
  · obtain ⟨j, hj, h1, h2⟩ := r.leads hf (f := g) (P := fun j => (r.st j).pc g = .gone) hp
      (fun j _ h1 h2 => by
        rcases pc_step (r.next j) g with h3 | h3 | h3 | h3 | h3
        · rw [h3]; exact h1
        · rw [h3] at h1; cases h1
        · rw [h3.1] at h1; cases h1
        · have hn := r.next j
          rw [h3] at hn
          simp [step, run_aborted, run, h1] at hn
        · exact absurd h3.2.1 h2)
      (fun j h1 => by simp [step, run_aborted, h1])
    have hn := r.next j
    refine ⟨j + 1, by omega, ?_⟩
    rcases pc_step hn g with h3 | h3 | h3 | h3 | h3
    · rw [h2] at hn
      simp only [step, run_aborted, h1, Bool.false_eq_true, if_false, if_true, Option.some.injEq] at hn
      have := congrArg (fun x => x.1.pc g) hn
      simp only [release_pc, upd_same] at this
      exact this.symm
    · rw [h3] at h1; cases h1
    · rw [h3.1] at h1; cases h1
    · rw [h2] at h3; cases h3
    · exact h3.2.2
  · exact ⟨i, Nat.le_refl _, hp⟩

theorem reaped_le {i j : Nat} (hij : i ≤ j) {k : Fid} (h : (r.st i).pc k = .reaped) : (r.st j).pc k = .reaped := by
  obtain ⟨d, rfl⟩ := Nat.le.dest hij
  clear hij
  induction d with
  | zero => exact h
  | succ d ih =>
    rcases pc_step (r.next (i + d)) k with h3 | h3 | h3 | h3 | h3
    · rw [← Nat.add_assoc, h3]; exact ih
    · rw [h3] at ih; cases ih
    · rw [h3.1] at ih; cases ih
    · have hn := r.next (i + d)
      rw [h3] at hn
      simp [step, run_aborted, run, ih] at hn
    · rw [← Nat.add_assoc]; exact h3.2.2

/-- A fiber no handle refers to: none ever will. -/
theorem no_handle {s s' : State} {e : Event} {o : List Obs} (hs : step s e = some (s', o)) {g : Fid} (hb : s.pc g ≠ .unborn)
    (h : ∀ k, s.hd k ≠ some (some g)) : ∀ k, s'.hd k ≠ some (some g) := by
  unfold step at hs
  split at hs
  · cases hs
  · split at hs
    · split at hs
      · simp only [Option.some.injEq, Prod.mk.injEq] at hs; obtain ⟨rfl, rfl⟩ := hs; exact h
      · cases hs
    · split at hs
      · rename_i f op hp
        cases op <;> simp only [call, ret, abort] at hs <;> (repeat' split at hs) <;>
          (try (simp only [reduceCtorEq] at hs; done)) <;> simp only [Option.some.injEq, Prod.mk.injEq] at hs <;> obtain ⟨rfl, rfl⟩ := hs <;>
          (try simp only [release_hd, upd_apply]) <;> grind
      · cases hs
    · split at hs
      · simp only [Option.some.injEq, Prod.mk.injEq] at hs; obtain ⟨rfl, rfl⟩ := hs; exact h
      · cases hs
    · unfold run at hs
      (repeat' split at hs) <;> (try (simp only [reduceCtorEq] at hs; done)) <;> simp only [Option.some.injEq, Prod.mk.injEq] at hs <;>
          obtain ⟨rfl, rfl⟩ := hs <;> (try simp only [release_hd, upd_apply]) <;> grind
    · split at hs
      · rename_i f hp
        simp only [Option.some.injEq] at hs
        have : s' = (release { s with pc := upd s.pc f .reaped } f).1 := by rw [hs]
        rw [this, release_hd]; exact h
      · cases hs
    · split at hs
      · simp only [Option.some.injEq, Prod.mk.injEq] at hs; obtain ⟨rfl, rfl⟩ := hs; exact h
      · cases hs

theorem no_handle_le {i j : Nat} (hij : i ≤ j) {g : Fid} (hb : (r.st i).pc g ≠ .unborn) (h : ∀ k, (r.st i).hd k ≠ some (some g)) :
    (r.st j).pc g ≠ .unborn ∧ ∀ k, (r.st j).hd k ≠ some (some g) := by
  obtain ⟨d, rfl⟩ := Nat.le.dest hij
  clear hij
  induction d with
  | zero => exact ⟨hb, h⟩
  | succ d ih =>
    refine ⟨?_, no_handle (r.next (i + d)) ih.1 ih.2⟩
    rw [← Nat.add_assoc]
    have hn := r.next (i + d)
    rcases pc_step hn g with h3 | h3 | ⟨_, h3⟩ | h3 | h3
    · rw [h3]; exact ih.1
    · exact absurd h3 ih.1
    · rcases h3 with ⟨_, _, _, _, _, h3 | ⟨_, h3⟩⟩ | ⟨_, _, h3⟩ <;> rw [h3] <;> simp
    · rw [h3] at hn
      simp only [step, run_aborted, run] at hn
      (repeat' split at hn) <;> (try (simp only [reduceCtorEq] at hn; done)) <;> simp only [Option.some.injEq, Prod.mk.injEq] at hn <;>
          rw [← hn.1] <;> simp [release_pc]
    · rw [h3.2.2]; simp

/-- A fiber inside `join` stays there until `join` returns. -/
theorem in_join {i : Nat} {f g : Fid} {h : Hid} (hp : pendOf ((r.st i).pc f) = some (.join h, some g)) :
    pendOf ((r.st (i + 1)).pc f) = some (.join h, some g) ∨ .ret f (.join h) (some g) .ok ∈ r.ob i := by
  have hn := r.next i
  rcases pc_step hn f with h3 | h3 | h3 | h3 | h3
  · rw [h3]; exact .inl hp
  · simp [h3, pendOf] at hp
  · simp [h3.1, pendOf] at hp
  · rw [h3] at hn
    cases e : (r.st i).pc f <;> simp only [e, pendOf, reduceCtorEq, Option.some.injEq, Prod.mk.injEq, Op.join.injEq] at hp
    · simp only [step, run_aborted, run, e] at hn
      (repeat' split at hn) <;> (try (simp only [reduceCtorEq] at hn; done)) <;> simp only [Option.some.injEq, Prod.mk.injEq] at hn
      rw [← hn.1]; left; simp [pendOf, hp]
    · simp only [step, run_aborted, run, e] at hn
      (repeat' split at hn) <;> (try (simp only [reduceCtorEq] at hn; done)) <;> simp only [Option.some.injEq, Prod.mk.injEq] at hn <;>
        rw [← hn.2] <;> right <;> simp [hp]
  · simp [h3.1, pendOf] at hp

/-- A fiber inside `join` of a fiber that has terminated comes back. -/
theorem join_ends (hf : r.Fair Event.run) {i : Nat} {f g : Fid} {h : Hid} (hp : pendOf ((r.st i).pc f) = some (.join h, some g))
    (ho : ((r.st i).pc g).over = true) : ∃ j, i ≤ j ∧ .ret f (.join h) (some g) .ok ∈ r.ob j := by
  have second : ∀ i, (r.st i).pc f = .joined h g → ∃ j, i ≤ j ∧ .ret f (.join h) (some g) .ok ∈ r.ob j := by
    intro i hp
    obtain ⟨j, hj, h1, h2⟩ := r.leads hf (f := f) (P := fun j => (r.st j).pc f = .joined h g) hp
      (fun j _ h1 h2 => by
        rcases pc_step (r.next j) f with h3 | h3 | h3 | h3 | h3
        · rw [h3]; exact h1
        · rw [h3] at h1; cases h1
        · rw [h3.1] at h1; cases h1
        · exact absurd h3 h2
        · rw [h3.1] at h1; cases h1)
      (fun j h1 => by simp only [step, run_aborted, run, h1, Bool.false_eq_true, if_false]; split <;> simp)
    have hn := r.next j
    rw [h2] at hn
    simp only [step, run_aborted, run, h1] at hn
    refine ⟨j, hj, ?_⟩
    (repeat' split at hn) <;> (try (simp only [reduceCtorEq] at hn; done)) <;> simp only [Option.some.injEq, Prod.mk.injEq] at hn <;>
        rw [← hn.2] <;> simp
  cases e : (r.st i).pc f <;> simp only [e, pendOf, reduceCtorEq, Option.some.injEq, Prod.mk.injEq, Op.join.injEq] at hp
  · rename_i h' g' ep
    obtain ⟨rfl, rfl⟩ := hp
    obtain ⟨j, hj, h1, h2⟩ := r.leads hf (f := f) (P := fun j => (r.st j).pc f = .waiting h' g' ep ∧ ((r.st j).pc g').over = true) ⟨e, ho⟩
      (fun j _ h1 h2 => by
        refine ⟨?_, run_over (r.next j) h1.2⟩
        have h1 := h1.1
        rcases pc_step (r.next j) f with h3 | h3 | h3 | h3 | h3
        · rw [h3]; exact h1
        · rw [h3] at h1; cases h1
        · rw [h3.1] at h1; cases h1
        · exact absurd h3 h2
        · rw [h3.1] at h1; cases h1)
      (fun j h1 => by
        obtain ⟨hc, hw, -⟩ := reach_inv (r.reach j)
        have := (hw.rd _ _ _ _ h1.1).2 (by rw [hc.trm]; exact h1.2)
        simp [step, run_aborted, run, h1.1, this])
    have hn := r.next j
    rw [h2] at hn
    simp only [step, run_aborted, run, h1.1] at hn
    (repeat' split at hn) <;> (try (simp only [reduceCtorEq] at hn; done)) <;> simp only [Option.some.injEq, Prod.mk.injEq] at hn
    obtain ⟨k, hk, h4⟩ := second (j + 1) (by rw [← hn.1]; simp)
    exact ⟨k, by omega, h4⟩
  · obtain ⟨rfl, rfl⟩ := hp
    exact second i e

/-- A fiber is a main fiber or was spawned. -/
theorem spawned {s : State} {tr : List Obs} (hr : Reach step init s tr) (g : Fid) :
    s.pc g = .unborn ∨ s.main g = true ∨ ∃ f h, .called f (.spawn h g) (some g) ∈ tr := by
  refine Reach.inv (fun s tr => s.pc g = .unborn ∨ s.main g = true ∨ ∃ f h, .called f (.spawn h g) (some g) ∈ tr) (.inl rfl) ?_ hr
  intro s tr e s' o _ ih hs
  have hmain : s.main g = true → s'.main g = true := by
    intro hm
    unfold step at hs
    split at hs
    · cases hs
    · split at hs
      · split at hs
        · simp only [Option.some.injEq, Prod.mk.injEq] at hs; obtain ⟨rfl, rfl⟩ := hs; simp only [upd_apply]; grind
        · cases hs
      · split at hs
        · rename_i f op hp
          cases op <;> simp only [call, ret, abort] at hs <;> (repeat' split at hs) <;>
            (try (simp only [reduceCtorEq] at hs; done)) <;> simp only [Option.some.injEq, Prod.mk.injEq] at hs <;> obtain ⟨rfl, rfl⟩ := hs <;>
            (try simp only [release_main]) <;> exact hm
        · cases hs
      · split at hs
        · simp only [Option.some.injEq, Prod.mk.injEq] at hs; obtain ⟨rfl, rfl⟩ := hs; exact hm
        · cases hs
      · unfold run at hs
        (repeat' split at hs) <;> (try (simp only [reduceCtorEq] at hs; done)) <;> simp only [Option.some.injEq, Prod.mk.injEq] at hs <;>
            obtain ⟨rfl, rfl⟩ := hs <;> (try simp only [release_main]) <;> exact hm
      · split at hs
        · rename_i f hp
          simp only [Option.some.injEq] at hs
          have : s' = (release { s with pc := upd s.pc f .reaped } f).1 := by rw [hs]
          rw [this, release_main]; exact hm
        · cases hs
      · split at hs
        · simp only [Option.some.injEq, Prod.mk.injEq] at hs; obtain ⟨rfl, rfl⟩ := hs; exact hm
        · cases hs
  rcases ih with ih | ih | ⟨f, h, ih⟩
  · have hs0 := hs
    rcases pc_step hs g with h3 | h3 | h3 | h3 | h3
    · exact .inl (by rw [h3]; exact ih)
    · unfold step at hs
      split at hs
      · cases hs
      · split at hs
        · split at hs
          · simp only [Option.some.injEq, Prod.mk.injEq] at hs; obtain ⟨rfl, rfl⟩ := hs; simp only [upd_apply]; grind
          · cases hs
        · split at hs
          · rename_i f op hp
            rcases call_pc (k := g) hp hs with h | h | h
            · left; rw [h]; exact ih
            · obtain ⟨_, _, _, h, h4⟩ := h; exact .inr (.inr ⟨f, h, by simp [h4]⟩)
            · rw [h.1, hp] at ih; cases ih
          · cases hs
        · split at hs
          · rename_i f hp
            simp only [Option.some.injEq, Prod.mk.injEq] at hs; obtain ⟨rfl, rfl⟩ := hs; simp only [upd_apply]; grind
          · cases hs
        · unfold run at hs
          (repeat' split at hs) <;> (try (simp only [reduceCtorEq] at hs; done)) <;> simp only [Option.some.injEq, Prod.mk.injEq] at hs <;>
            obtain ⟨rfl, rfl⟩ := hs <;> (try simp only [release_pc, upd_apply]) <;> grind
        · split at hs
          · rename_i f hp
            simp only [Option.some.injEq] at hs
            have : s' = (release { s with pc := upd s.pc f .reaped } f).1 := by rw [hs]
            rw [this, release_pc]; simp only [upd_apply]; grind
          · cases hs
        · split at hs
          · simp only [Option.some.injEq, Prod.mk.injEq] at hs; obtain ⟨rfl, rfl⟩ := hs; exact .inl ih
          · cases hs
    · rw [h3.1] at ih; cases ih
    · rw [h3] at hs
      simp only [step, run, ih] at hs
      split at hs <;> cases hs
    · rw [h3.1] at ih; cases ih
  · exact .inr (.inl (hmain ih))
  · exact .inr (.inr ⟨f, h, by simp [ih]⟩)

/-- The step in which `join` is called. -/
theorem called_join {s s' : State} {e : Event} {o : List Obs} {f : Fid} {h : Hid} {x : Option Fid} (hcore : Core s) (hs : step s e = some (s', o))
    (hc : .called f (.join h) x ∈ o) : s.hd h = some x ∧
      ((x = none ∧ o = [.called f (.join h) x, .ret f (.join h) x .invalid]) ∨ (x = some f ∧ o = [.called f (.join h) x, .ret f (.join h) x .deadlock]) ∨
        ∃ g, x = some g ∧ f ≠ g ∧ o = [.called f (.join h) x]) := by
  unfold step at hs
  split at hs
  · cases hs
  · split at hs
    · split at hs
      · simp only [Option.some.injEq, Prod.mk.injEq] at hs; rw [← hs.2] at hc; cases hc
      · cases hs
    · split at hs
      · rename_i f' op hp
        cases op <;> simp only [call, ret, abort] at hs <;> (repeat' split at hs) <;>
          (try (simp only [reduceCtorEq] at hs; done)) <;> simp only [Option.some.injEq, Prod.mk.injEq] at hs <;> obtain ⟨rfl, rfl⟩ := hs <;>
          simp only [List.mem_cons, List.not_mem_nil, Obs.called.injEq, reduceCtorEq, or_false, false_or, false_and, and_false, Op.join.injEq] at hc
        · obtain ⟨rfl, rfl, rfl⟩ := hc; rename_i hk; exact ⟨hk, .inl ⟨rfl, rfl⟩⟩
        · obtain ⟨rfl, rfl, rfl⟩ := hc; rename_i hg hk; subst hg; exact ⟨hk, .inr (.inl ⟨rfl, rfl⟩)⟩
        · obtain ⟨rfl, rfl, rfl⟩ := hc; have hg := ‹¬ _ = f›; have hk := ‹s.hd h = _›; exact ⟨hk, .inr (.inr ⟨_, rfl, fun h => hg h.symm, rfl⟩)⟩
        · obtain ⟨rfl, rfl, rfl⟩ := hc; have hg := ‹¬ _ = f›; have hk := ‹s.hd h = _›; exact ⟨hk, .inr (.inr ⟨_, rfl, fun h => hg h.symm, rfl⟩)⟩
        · obtain ⟨rfl, rfl, rfl⟩ := hc; rename_i g hl hg hk
          exact absurd ((hcore.liv g).2 (by have := hcore.held _ _ hk; omega)) hl
        · rcases release_obs _ _ _ hc with hc | hc <;> cases hc
      · cases hs
    · split at hs
      · simp only [Option.some.injEq, Prod.mk.injEq] at hs; rw [← hs.2] at hc; simp at hc
      · cases hs
    · unfold run at hs
      (repeat' split at hs) <;> (try (simp only [reduceCtorEq] at hs; done)) <;> simp only [Option.some.injEq, Prod.mk.injEq] at hs <;>
        obtain ⟨rfl, rfl⟩ := hs <;> (try (simp at hc; done))
      simp only [List.mem_cons, reduceCtorEq, false_or] at hc
      rcases release_obs _ _ _ hc with hc | hc <;> cases hc
    · split at hs
      · rename_i f' hp
        simp only [Option.some.injEq] at hs
        have : o = (release { s with pc := upd s.pc f' .reaped } f').2 := by rw [hs]
        rw [this] at hc
        rcases release_obs _ _ _ hc with hc | hc <;> cases hc
      · cases hs
    · split at hs
      · simp only [Option.some.injEq, Prod.mk.injEq] at hs; rw [← hs.2] at hc; cases hc
      · cases hs

end Verif.Fib
