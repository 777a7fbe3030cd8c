import Verif.UnbufLive

/-!
# Timed calls on an unbuffered channel, on fair executions

`push_wait_until` and `pop_wait_until` (`include/boost/fiber/unbuffered_channel.hpp:210-298,363-391`). The machine is `Verif.Unbuf`.
-/

namespace Verif.Unbuf

variable {V : Type} {r : Run (step (V := V)) init}

theorem step_ok {s : State V} (h : s.ub = false) (e : Event V) : step s e = stepOk s e := by simp [step, h]

/-- What a step does not change. -/
theorem frame {s s' : State V} {o : List (Obs V)} {e : Event V} (hw : WI s) (hs : stepOk s e = some (s', o)) :
    (∀ f, e ≠ .run f → e ≠ .fail f → s.pc f ≠ .idle → s'.pc f = s.pc f) ∧
      (∀ f, e ≠ .run f → e ≠ .fail f → s.c.ready f = true → s'.c.ready f = true) ∧ s.now ≤ s'.now := by
  cases e with
  | run g =>
    have h := run_frame hw hs
    refine ⟨fun f h1 _ _ => (h.2.2 f ?_).1, fun f h1 _ => (h.2.2 f ?_).2, Nat.le_of_eq h.2.1.symm⟩ <;> (rintro rfl; exact h1 rfl)
  | fail g =>
    have h := run_frame hw hs
    refine ⟨fun f _ h1 _ => (h.2.2 f ?_).1, fun f _ h1 => (h.2.2 f ?_).2, Nat.le_of_eq h.2.1.symm⟩ <;> (rintro rfl; exact h1 rfl)
  | timer g =>
    simp only [stepOk] at hs
    (repeat' split at hs) <;> simp only [Option.some.injEq, Prod.mk.injEq, reduceCtorEq] at hs
    obtain ⟨rfl, rfl⟩ := hs
    refine ⟨fun _ _ _ _ => rfl, fun f _ _ h => ?_, Nat.le_refl _⟩
    simp only [wake]; split <;> simp [upd_apply, h]
  | tick n => simp only [stepOk, Option.some.injEq, Prod.mk.injEq] at hs; obtain ⟨rfl, rfl⟩ := hs; simp_all
  | _ =>
    simp only [stepOk] at hs
    split at hs <;> simp only [Option.some.injEq, Prod.mk.injEq, reduceCtorEq] at hs
    obtain ⟨rfl, rfl⟩ := hs
    refine ⟨fun f _ _ h => ?_, fun f _ _ h => h, Nat.le_refl _⟩ <;> grind [upd_apply]

theorem next_ok (r : Run (step (V := V)) init) (i : Nat) : stepOk (r.st i) (r.ev i) = some (r.st (i + 1), r.ob i) := by
  rw [← step_ok (run_ub r i)]; exact r.next i

theorem frame_at (r : Run (step (V := V)) init) (i : Nat) :
    (∀ f, r.ev i ≠ .run f → r.ev i ≠ .fail f → (r.st i).pc f ≠ .idle → (r.st (i + 1)).pc f = (r.st i).pc f) ∧
      (∀ f, r.ev i ≠ .run f → r.ev i ≠ .fail f → (r.st i).c.ready f = true → (r.st (i + 1)).c.ready f = true) ∧ (r.st i).now ≤ (r.st (i + 1)).now :=
  frame (reach_w (r.reach i)).1 (next_ok r i)

theorem now_le {i j : Nat} (hij : i ≤ j) : (r.st i).now ≤ (r.st j).now := by
  obtain ⟨d, rfl⟩ := Nat.le.dest hij
  clear hij
  induction d with
  | zero => exact Nat.le_refl _
  | succ d ih => exact Nat.le_trans ih (frame_at r (i + d)).2.2

/-- A least element of a nonempty set of numbers. -/
theorem least {P : Nat → Prop} : ∀ n, P n → ∃ m, m ≤ n ∧ P m ∧ ∀ k, k < m → ¬ P k := by
  intro n
  induction n using Nat.strongRecOn with
  | _ n ih =>
    intro h
    by_cases hk : ∃ k, k < n ∧ P k
    · obtain ⟨k, h1, h2⟩ := hk
      obtain ⟨m, h3, h4⟩ := ih k h1 h2
      exact ⟨m, by omega, h4⟩
    · exact ⟨n, Nat.le_refl _, h, fun k h1 h2 => hk ⟨k, h1, h2⟩⟩

/-- While `f` does not run it stays where it is. -/
theorem stays {i : Nat} {f : Fid} (h : (r.st i).pc f ≠ .idle) : ∀ d, (∀ m, i ≤ m → m < i + d → r.ev m ≠ .run f ∧ r.ev m ≠ .fail f) →
    (r.st (i + d)).pc f = (r.st i).pc f ∧ ((r.st i).c.ready f = true → (r.st (i + d)).c.ready f = true) := by
  intro d
  induction d with
  | zero => exact fun _ => ⟨rfl, id⟩
  | succ d ih =>
    intro hno
    have ih := ih (fun m h1 h2 => hno m h1 (by omega))
    have h3 := frame_at r (i + d)
    have h4 := hno (i + d) (by omega) (by omega)
    exact ⟨by rw [← Nat.add_assoc, h3.1 f h4.1 h4.2 (by rw [ih.1]; exact h)]; exact ih.1, fun h' => h3.2.1 f h4.1 h4.2 (ih.2 h')⟩

/-- If `f`, as long as it does not run, can run again and again, it makes its next step: `run f`, or `fail f` if it throws. -/
theorem goes (hf : r.Strong Event.run) {i : Nat} {f : Fid} (h : (r.st i).pc f ≠ .idle) (hr : Bool) (h0 : hr = true → (r.st i).c.ready f = true)
    (hen : ∀ j, i ≤ j → ∃ k, j ≤ k ∧ ((r.st k).pc f = (r.st i).pc f → (hr = true → (r.st k).c.ready f = true) → stepOk (r.st k) (.run f) ≠ none)) :
    ∃ j b s' o, i ≤ j ∧ (r.st j).pc f = (r.st i).pc f ∧ run (r.st j) f b = some (s', o) ∧ r.st (j + 1) = s' ∧ r.ob j = o ∧
      ∀ m, i ≤ m → m < j → r.ev m ≠ .run f ∧ r.ev m ≠ .fail f := by
  have key : ∃ d, r.ev (i + d) = .run f ∨ r.ev (i + d) = .fail f := by
    refine Classical.byContradiction fun hn => ?_
    have hno : ∀ m, i ≤ m → r.ev m ≠ .run f ∧ r.ev m ≠ .fail f := fun m hm =>
      ⟨fun he => hn ⟨m - i, .inl (by rw [Nat.add_sub_cancel' hm]; exact he)⟩, fun he => hn ⟨m - i, .inr (by rw [Nat.add_sub_cancel' hm]; exact he)⟩⟩
    obtain ⟨j, hj, he⟩ := hf f (fun k => by
      obtain ⟨m, hm, h1⟩ := hen (max i k) (by omega)
      have h2 := stays h (m - i) (fun m h1 _ => hno m h1)
      rw [Nat.add_sub_cancel' (by omega)] at h2
      exact ⟨m, by omega, by rw [step_ok (run_ub r m)]; exact h1 h2.1 (fun h' => h2.2 (h0 h'))⟩) i
    exact (hno j hj).1 he
  obtain ⟨d, hd⟩ := key
  obtain ⟨d, -, hd, hmin⟩ := least (P := fun d => r.ev (i + d) = .run f ∨ r.ev (i + d) = .fail f) d hd
  have hno : ∀ m, i ≤ m → m < i + d → r.ev m ≠ .run f ∧ r.ev m ≠ .fail f := fun m h1 h2 => by
    have := hmin (m - i) (by omega)
    rw [Nat.add_sub_cancel' h1] at this
    exact ⟨fun h => this (.inl h), fun h => this (.inr h)⟩
  have hpc := (stays h d hno).1
  have hn := next_ok r (i + d)
  rcases hd with hd | hd <;> rw [hd] at hn <;> exact ⟨i + d, _, _, _, by omega, hpc, hn, rfl, rfl, hno⟩

/-- The consumers' spinlock is free again and again. -/
theorem cons_free (hf : r.Strong Event.run) (i : Nat) : ∃ j, i ≤ j ∧ (r.st j).lk .cons = none := by
  cases hs : (r.st i).lk .cons with
  | none => exact ⟨i, Nat.le_refl _, hs⟩
  | some f =>
    have h1 := ((reach_pi (r.reach i)).lkc f).1 hs
    cases hp : (r.st i).pc f <;> rw [hp] at h1 <;> simp [Pc.holdsCons] at h1
    obtain ⟨j, b, s', o, hj, h2, h3, h4, _, _⟩ := goes hf (i := i) (f := f) (by simp [hp]) false (by simp)
      (fun j hj => ⟨j, Nat.le_refl _, fun h _ => by simp only [stepOk, run, h, hp]; split <;> simp⟩)
    rw [hp] at h2
    refine ⟨j + 1, by omega, ?_⟩
    rw [h4]
    simp only [run, h2] at h3
    split at h3 <;> simp only [Option.some.injEq, Prod.mk.injEq] at h3 <;> rw [← h3.1] <;> simp [setLk, State.block]

/-- The producers' spinlock is free again and again. -/
theorem prod_free (hf : r.Strong Event.run) (i : Nat) : ∃ j, i ≤ j ∧ (r.st j).lk .prod = none := by
  cases hs : (r.st i).lk .prod with
  | none => exact ⟨i, Nat.le_refl _, hs⟩
  | some f =>
    have h1 := ((reach_pi (r.reach i)).lkp f).1 hs
    cases hp : (r.st i).pc f <;> rw [hp] at h1 <;> simp [Pc.holdsProd] at h1
    · obtain ⟨j, b, s', o, hj, h2, h3, h4, _, _⟩ := goes hf (i := i) (f := f) (by simp [hp]) false (by simp)
        (fun j hj => ⟨j, Nat.le_refl _, fun h _ => by simp only [stepOk, run, h, hp]; split <;> simp⟩)
      rw [hp] at h2
      refine ⟨j + 1, by omega, ?_⟩
      rw [h4]
      simp only [run, h2] at h3
      split at h3 <;> simp only [Option.some.injEq, Prod.mk.injEq] at h3 <;> rw [← h3.1] <;> simp [setLk, State.block]
    · obtain ⟨j, b, s', o, hj, h2, h3, h4, _, _⟩ := goes hf (i := i) (f := f) (by simp [hp]) false (by simp)
        (fun j hj => by
          obtain ⟨m, hm, h⟩ := cons_free hf j
          exact ⟨m, hm, fun h' _ => by simp [stepOk, run, h', hp, h]⟩)
      rw [hp] at h2
      refine ⟨j + 1, by omega, ?_⟩
      rw [h4]
      simp only [run, h2] at h3
      split at h3 <;> simp only [Option.some.injEq, Prod.mk.injEq, reduceCtorEq] at h3
      rw [State.ret] at h3
      simp only [Prod.mk.injEq] at h3
      rw [← h3.1]; simp [setLk, State.goto]

/-- Asleep: in a wait queue, or waiting for the consumer of the own value. -/
def Pc.sleeps : Pc V → Bool
  | .waitPush _ _ _ | .waitPop _ _ | .slotWait _ _ _ => true
  | _ => false

/-- Whoever is not asleep goes on. -/
theorem advance (hf : r.Strong Event.run) {i : Nat} {f : Fid} (h : (r.st i).pc f ≠ .idle)
    (hw : ((r.st i).pc f).sleeps = true → (r.st i).c.ready f = true) :
    ∃ j b s' o, i ≤ j ∧ (r.st j).pc f = (r.st i).pc f ∧ run (r.st j) f b = some (s', o) ∧ r.st (j + 1) = s' ∧ r.ob j = o ∧
      ∀ m, i ≤ m → m < j → r.ev m ≠ .run f ∧ r.ev m ≠ .fail f := by
  refine goes hf h ((r.st i).pc f).sleeps hw (fun j hj => ?_)
  obtain ⟨m1, hm1, hc⟩ := cons_free hf j
  obtain ⟨m2, hm2, hp⟩ := prod_free hf j
  cases hq : (r.st i).pc f
  case idle => exact absurd hq h
  case pushNotify | popLock | unlinkPop | closeCons =>
    refine ⟨m1, hm1, fun h' _ => ?_⟩
    simp only [stepOk, run, State.unlink, h', hc]; (try split) <;> simp
  case pushLock | popNotify | unlinkPush | closeProd =>
    refine ⟨m2, hm2, fun h' _ => ?_⟩
    simp only [stepOk, run, State.unlink, h', hp]; (try split) <;> simp
  all_goals
    refine ⟨j, Nat.le_refl _, fun h' hrd => ?_⟩
    simp only [Pc.sleeps, forall_const, Bool.false_eq_true, false_implies] at hrd
    simp only [stepOk, run, State.resume, h', hrd, if_true]
    (repeat' split) <;> simp

/-! ## After the deadline -/

/-- How many steps are left for a timed call when its deadline has passed and nobody else changes the slot. `e`: the slot is empty. -/
def lateRank (e : Bool) : Pc V → Nat
  | .slotAfter _ _ _ | .slotLate _ _ _ | .unlinkPush _ _ _ => 1
  | .slotWait _ _ _ | .waitPush _ _ _ => 2
  | .pushNotify _ _ _ => 3
  | .pushTry _ _ => if e then 4 else 5
  | .pushStart _ _ => if e then 5 else 6
  | .pushLocked _ _ => if e then 6 else 3
  | .pushLock _ _ => if e then 7 else 4
  | .popWake _ _ _ | .unlinkPop _ _ => 1
  | .popRead _ _ | .waitPop _ _ => 2
  | .popNotify _ _ => 3
  | .popLocked _ => if e then 3 else 5
  | .popLock _ => if e then 4 else 6
  | .popStart _ => if e then 5 else 4
  | _ => 0

/-- Every step brings such a call closer to its end. -/
theorem late_run {s s' : State V} {f : Fid} {op : Op V} {o : List (Obs V)} {b : Bool} {d : Nat} (h : opOf (s.pc f) = some op) (hd : op.dl = some d)
    (hnow : d ≤ s.now) (hs : run s f b = some (s', o)) (hub : s'.ub = false) (hub0 : s.ub = false) :
    (opOf (s'.pc f) = some op ∧ lateRank s'.slot.isNone (s'.pc f) < lateRank s.slot.isNone (s.pc f)) ∨ ∃ x, .ret f (s.calls f) op x s.now ∈ o := by
  ucases s, f, hs, hp
  all_goals try (simp [State.crash] at hub; done)
  all_goals rw [hp] at h
  all_goals simp only [opOf, Option.some.injEq, reduceCtorEq] at h
  all_goals subst h
  all_goals try (simp only [Op.dl, reduceCtorEq] at hd; done)
  all_goals first
    | (exact .inr ⟨_, List.mem_singleton.2 rfl⟩)
    | (left; simp [opOf, lateRank, *]; done)
    | (left; cases hsl : s.slot <;> simp_all [opOf, lateRank]; done)
    | (exfalso; simp_all [Op.dl, PopOp.op, PopOp.dl]; done)
    | (exfalso; rename PopOp => p; cases p <;> simp_all [Op.dl, PopOp.op, PopOp.dl] <;> omega)
    | (exfalso; simp_all [Op.dl, PopOp.op, PopOp.dl] <;> omega)

/-- Nothing in `o` shows a fiber other than `f` putting a value on offer, taking one, or withdrawing one. -/
def Still (f : Fid) (o : List (Obs V)) : Prop :=
  ∀ g, g ≠ f → (∀ k v, .placed g k v ∉ o) ∧ (∀ j h k, .took g j h k ∉ o) ∧ ∀ k v dl t, .ret g k (.push v dl) .timeout t ∉ o

theorem slot_run {s s' : State V} {g f : Fid} {o : List (Obs V)} {b : Bool} (hg : g ≠ f) (hs : run s g b = some (s', o)) (ho : Still f o) :
    s'.slot = s.slot := by
  have h := ho g hg
  clear ho
  ucases s, g, hs, hp
  all_goals first
    | rfl
    | exact absurd (List.mem_singleton.2 rfl) (h.1 _ _)
    | exact absurd (List.mem_singleton.2 rfl) (h.2.1 _ _ _)
    | exact absurd (List.mem_singleton.2 rfl) (h.2.2 _ _ _ _)

theorem slot_step {s s' : State V} {f : Fid} {o : List (Obs V)} {e : Event V} (h1 : e ≠ .run f) (h2 : e ≠ .fail f) (hs : stepOk s e = some (s', o))
    (ho : Still f o) : s'.slot = s.slot := by
  cases e with
  | run g => exact slot_run (by rintro rfl; exact h1 rfl) hs ho
  | fail g => exact slot_run (by rintro rfl; exact h2 rfl) hs ho
  | tick n => simp only [stepOk, Option.some.injEq, Prod.mk.injEq] at hs; obtain ⟨rfl, rfl⟩ := hs; rfl
  | _ =>
    simp only [stepOk] at hs
    (repeat' split at hs) <;> simp only [Option.some.injEq, Prod.mk.injEq, reduceCtorEq] at hs
    obtain ⟨rfl, rfl⟩ := hs
    rfl

/-- A call begins with `called`. -/
theorem called_in {s s' : State V} {f : Fid} {k : Nat} {op : Op V} {o : List (Obs V)} {e : Event V} (hs : stepOk s e = some (s', o))
    (hc : .called f k op ∈ o) : opOf (s'.pc f) = some op ∧ s'.calls f = k := by
  cases e with
  | run g => exfalso; simp only [stepOk] at hs; ucases s, g, hs, hp <;> simp [State.crash] at hc
  | fail g => exfalso; simp only [stepOk] at hs; ucases s, g, hs, hp <;> simp [State.crash] at hc
  | tick n => simp only [stepOk, Option.some.injEq, Prod.mk.injEq] at hs; obtain ⟨rfl, rfl⟩ := hs; simp at hc
  | _ =>
    simp only [stepOk] at hs
    (repeat' split at hs) <;> simp only [Option.some.injEq, Prod.mk.injEq, reduceCtorEq] at hs
    obtain ⟨rfl, rfl⟩ := hs
    simp at hc
    try (obtain ⟨rfl, rfl, rfl⟩ := hc; simp; cases op <;> simp [startOf, opOf, PopOp.op])

/-- Calls are numbered when they are made. -/
theorem calls_step {s s' : State V} {f : Fid} {o : List (Obs V)} {e : Event V} (hw : WI s) (h : s.pc f ≠ .idle) (hs : stepOk s e = some (s', o)) :
    s'.calls f = s.calls f := by
  cases e with
  | run g => rw [(run_frame hw hs).1]
  | fail g => rw [(run_frame hw hs).1]
  | tick n => simp only [stepOk, Option.some.injEq, Prod.mk.injEq] at hs; obtain ⟨rfl, rfl⟩ := hs; rfl
  | _ =>
    simp only [stepOk] at hs
    (repeat' split at hs) <;> simp only [Option.some.injEq, Prod.mk.injEq, reduceCtorEq] at hs
    obtain ⟨rfl, rfl⟩ := hs
    grind [upd_apply]

theorem calls_stay {i : Nat} {f : Fid} (h : (r.st i).pc f ≠ .idle) : ∀ d, (∀ m, i ≤ m → m < i + d → r.ev m ≠ .run f ∧ r.ev m ≠ .fail f) →
    (r.st (i + d)).calls f = (r.st i).calls f := by
  intro d
  induction d with
  | zero => exact fun _ => rfl
  | succ d ih =>
    intro hno
    have ih := ih (fun m h1 h2 => hno m h1 (by omega))
    rw [← Nat.add_assoc, calls_step (reach_w (r.reach (i + d))).1 ?_ (next_ok r (i + d)), ih]
    rw [(stays h d (fun m h1 h2 => hno m h1 (by omega))).1]; exact h

/-- A call of `f` ends with `ret`. -/
theorem in_call {s s' : State V} {f : Fid} {op : Op V} {o : List (Obs V)} {e : Event V} (hw : WI s) (h : opOf (s.pc f) = some op)
    (hs : stepOk s e = some (s', o)) (hub : s'.ub = false) :
    (opOf (s'.pc f) = some op ∧ s'.calls f = s.calls f) ∨ ∃ x, .ret f (s.calls f) op x s.now ∈ o := by
  by_cases he : ∃ b, run s f b = some (s', o)
  · obtain ⟨b, hs⟩ := he
    rw [(run_frame hw hs).1]
    ucases s, f, hs, hp
    all_goals try (simp [State.crash] at hub; done)
    all_goals rw [hp] at h
    all_goals simp only [opOf, Option.some.injEq, reduceCtorEq] at h
    all_goals subst h
    all_goals first
      | (exact .inr ⟨_, List.mem_singleton.2 rfl⟩)
      | (exact .inr ⟨_, List.mem_cons_of_mem _ (List.mem_singleton.2 rfl)⟩)
      | (left; simp [opOf]; done)
  · left
    have hid : s.pc f ≠ .idle := by intro h'; rw [h'] at h; cases h
    have h1 : e ≠ .run f := by rintro rfl; exact he ⟨_, hs⟩
    have h2 : e ≠ .fail f := by rintro rfl; exact he ⟨_, hs⟩
    exact ⟨by rw [(frame hw hs).1 f h1 h2 hid]; exact h, calls_step hw hid hs⟩

/-- The slot does not change until `f` runs. -/
theorem slot_stays {f : Fid} {i j : Nat} (hij : i ≤ j) (hst : ∀ m, i ≤ m → Still f (r.ob m))
    (hno : ∀ m, i ≤ m → m < j → r.ev m ≠ .run f ∧ r.ev m ≠ .fail f) : (r.st j).slot = (r.st i).slot := by
  obtain ⟨d, rfl⟩ := Nat.le.dest hij
  clear hij
  induction d with
  | zero => rfl
  | succ d ih =>
    have h := hno (i + d) (by omega) (by omega)
    rw [← Nat.add_assoc, slot_step h.1 h.2 (next_ok r (i + d)) (hst _ (by omega))]
    exact ih (fun m h1 h2 => hno m h1 (by omega))

/-- A fiber asleep in a call whose deadline has passed is woken. -/
theorem late_woken (ht : r.Fair Event.timer) {i : Nat} {f : Fid} {op : Op V} {d : Nat} (h : opOf ((r.st i).pc f) = some op) (hd : op.dl = some d)
    (hnow : d ≤ (r.st i).now) (hw : ((r.st i).pc f).sleeps = true) : ∃ j, i ≤ j ∧ (r.st j).pc f = (r.st i).pc f ∧
      ((r.st j).c.ready f = true ∨ r.ev j = .run f ∨ r.ev j = .fail f) ∧ ∀ m, i ≤ m → m < j → r.ev m ≠ .run f ∧ r.ev m ≠ .fail f := by
  have hid : (r.st i).pc f ≠ .idle := by intro h'; rw [h'] at h; cases h
  by_cases hall : ∃ d, r.ev (i + d) = .run f ∨ r.ev (i + d) = .fail f
  · obtain ⟨d, hd⟩ := hall
    obtain ⟨d, -, hd, hmin⟩ := least (P := fun d => r.ev (i + d) = .run f ∨ r.ev (i + d) = .fail f) d hd
    have hno : ∀ m, i ≤ m → m < i + d → r.ev m ≠ .run f ∧ r.ev m ≠ .fail f := fun m h1 h2 => by
      have := hmin (m - i) (by omega)
      rw [Nat.add_sub_cancel' h1] at this
      exact ⟨fun h => this (.inl h), fun h => this (.inr h)⟩
    exact ⟨i + d, by omega, (stays hid d hno).1, .inr hd, hno⟩
  · have hno : ∀ m, i ≤ m → r.ev m ≠ .run f ∧ r.ev m ≠ .fail f := fun m hm =>
      ⟨fun he => hall ⟨m - i, .inl (by rw [Nat.add_sub_cancel' hm]; exact he)⟩, fun he => hall ⟨m - i, .inr (by rw [Nat.add_sub_cancel' hm]; exact he)⟩⟩
    have hpc : ∀ j, i ≤ j → (r.st j).pc f = (r.st i).pc f := fun j hj => by
      have := (stays hid (j - i) (fun m h1 _ => hno m h1)).1
      rwa [Nat.add_sub_cancel' hj] at this
    obtain ⟨ep, hsl, hreg⟩ : ∃ ep, sleepOf ((r.st i).pc f) = some (ep, d) ∧ ∃ g, regOf ((r.st i).pc f) = some ⟨g, ep, some d, false⟩ := by
      cases hp : (r.st i).pc f <;> rw [hp] at h hw <;> simp [Pc.sleeps] at hw <;> simp [opOf] at h <;> subst h
      · simp [Op.dl] at hd; simp [sleepOf, regOf, hd]
      · simp [Op.dl] at hd; simp [sleepOf, regOf, hd]
      · rename_i p _; cases p <;> simp [PopOp.op, Op.dl] at hd; simp [sleepOf, regOf, hd, PopOp.dl]
    obtain ⟨g, hreg⟩ := hreg
    obtain ⟨j, hj, h1, h2⟩ := r.leads ht (f := f) (P := fun j => i ≤ j) (Nat.le_refl _) (fun j _ h1 _ => by omega)
      (fun j h1 => by
        have := now_le (r := r) h1
        rw [step_ok (run_ub r j)]
        simp [stepOk, hpc j h1, hsl, show d ≤ (r.st j).now by omega])
    have hn := next_ok r j
    have hle := now_le (r := r) hj
    rw [h2] at hn
    simp only [stepOk, hpc j hj, hsl, show d ≤ (r.st j).now by omega, if_true, Option.some.injEq, Prod.mk.injEq] at hn
    refine ⟨j + 1, by omega, hpc _ (by omega), .inl ?_, fun m h1 _ => hno m h1⟩
    rw [← hn.1]
    obtain ⟨gh, hwi⟩ := (reach_w (r.reach j)).1
    have hrd := hwi.not_ready_iff (f := f) (r := ⟨g, ep, some d, false⟩) (by simp [hpc j hj, hreg]) rfl
    simp only [wake]
    split
    · simp
    · rename_i hne
      cases hr : (r.st j).c.ready f with
      | true => rfl
      | false => exact absurd (hrd.1 hr) (by simpa using hne)

/-- A call whose deadline has passed, and which is alone in changing the slot, returns. -/
theorem late_returns (hf : r.Strong Event.run) (ht : r.Fair Event.timer) {i : Nat} {f : Fid} {op : Op V} {d k : Nat} (hd : op.dl = some d)
    (hnow : d ≤ (r.st i).now) (hst : ∀ m, i ≤ m → Still f (r.ob m)) : ∀ n j, i ≤ j → opOf ((r.st j).pc f) = some op → (r.st j).calls f = k →
      lateRank (r.st j).slot.isNone ((r.st j).pc f) ≤ n → ∃ m x t, j ≤ m ∧ .ret f k op x t ∈ r.ob m := by
  intro n
  induction n with
  | zero =>
    intro j _ h _ h0
    exfalso
    cases hp : (r.st j).pc f <;> rw [hp] at h h0 <;> simp [opOf, lateRank] at h h0
    all_goals first
      | (subst h; simp [Op.dl] at hd; done)
      | (split at h0 <;> omega)
  | succ n ih =>
    intro j hj h hk hn
    have hid : (r.st j).pc f ≠ .idle := by intro h'; rw [h'] at h; cases h
    have main : ∀ m, j ≤ m → (r.st m).pc f = (r.st j).pc f → (∀ q, j ≤ q → q < m → r.ev q ≠ .run f ∧ r.ev q ≠ .fail f) →
        (∃ b s' o, run (r.st m) f b = some (s', o) ∧ r.st (m + 1) = s' ∧ r.ob m = o) → ∃ m x t, j ≤ m ∧ .ret f k op x t ∈ r.ob m := by
      intro m hm h1 hno ⟨b, s', o, h2, h3, h4⟩
      have hsl := slot_stays hm (fun q hq => hst q (by omega)) hno
      have hcl : (r.st m).calls f = k := by
        have := calls_stay hid (m - j) (fun q h1 h2 => hno q h1 (by omega))
        rw [Nat.add_sub_cancel' hm] at this
        rw [this, hk]
      have hub : s'.ub = false := by rw [← h3]; exact run_ub r _
      rcases late_run (op := op) (by rw [h1]; exact h) hd (Nat.le_trans hnow (now_le (by omega))) h2 hub (run_ub r _) with ⟨h5, h6⟩ | ⟨x, h5⟩
      · rw [h1, hsl] at h6
        have hcl' : s'.calls f = k := by rw [(run_frame (reach_w (r.reach m)).1 h2).1]; exact hcl
        obtain ⟨m', x, t, hm', h7⟩ := ih (m + 1) (by omega) (by rw [h3]; exact h5) (by rw [h3]; exact hcl') (by rw [h3]; omega)
        exact ⟨m', x, t, by omega, h7⟩
      · exact ⟨m, x, _, hm, by rw [h4, ← hcl]; exact h5⟩
    by_cases hw : ((r.st j).pc f).sleeps = true
    · obtain ⟨m, hm, h1, h2, hno⟩ := late_woken ht h hd (Nat.le_trans hnow (now_le hj)) hw
      rcases h2 with h2 | h2
      · obtain ⟨m2, b, s', o, hm2, h3, h4, h5, h6, hno2⟩ := advance hf (i := m) (f := f) (by rw [h1]; exact hid) (fun _ => h2)
        refine main m2 (by omega) (by rw [h3, h1]) (fun q h7 h8 => ?_) ⟨b, s', o, h4, h5, h6⟩
        by_cases hq : q < m
        · exact hno q h7 hq
        · exact hno2 q (by omega) h8
      · have hn' := next_ok r m
        refine main m hm h1 hno ?_
        rcases h2 with h2 | h2 <;> rw [h2] at hn' <;> exact ⟨_, _, _, hn', rfl, rfl⟩
    · obtain ⟨m2, b, s', o, hm2, h3, h4, h5, h6, hno2⟩ := advance hf (i := j) (f := f) hid (fun h' => absurd h' hw)
      exact main m2 hm2 h3 hno2 ⟨b, s', o, h4, h5, h6⟩

/-- A timed call returns if its deadline passes and others leave the slot alone from some time on. -/
theorem timed_ends (hf : r.Strong Event.run) (ht : r.Fair Event.timer) {i n N : Nat} {f : Fid} {op : Op V} {d k : Nat} (hd : op.dl = some d)
    (hn : d ≤ (r.st n).now) (hst : ∀ m, N ≤ m → Still f (r.ob m)) (hc : .called f k op ∈ r.ob i) : ∃ j x t, .ret f k op x t ∈ r.ob j := by
  refine Classical.byContradiction fun hno => ?_
  have h0 := called_in (next_ok r i) hc
  have hall : ∀ e, opOf ((r.st (i + 1 + e)).pc f) = some op ∧ (r.st (i + 1 + e)).calls f = k := by
    intro e
    induction e with
    | zero => exact h0
    | succ e ih =>
      rcases in_call (reach_w (r.reach (i + 1 + e))).1 ih.1 (next_ok r (i + 1 + e)) (run_ub r _) with h | ⟨x, h⟩
      · exact ⟨h.1, h.2.trans ih.2⟩
      · rw [ih.2] at h; exact absurd ⟨_, _, _, h⟩ hno
  have h1 := hall (n + N)
  obtain ⟨j, x, t, -, h2⟩ := late_returns hf ht hd (i := i + 1 + (n + N)) (Nat.le_trans hn (now_le (by omega))) (fun m hm => hst m (by omega)) _ _
    (Nat.le_refl _) h1.1 h1.2 (Nat.le_refl _)
  exact hno ⟨j, x, t, h2⟩

end Verif.Unbuf
