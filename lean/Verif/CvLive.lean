import Verif.CondVar
import Verif.Fair

/-!
# Condition variables on fair executions

`include/boost/fiber/condition_variable.hpp:66-141`, `src/condition_variable.cpp:19-28`.
-/

namespace Verif.CondVar

variable {P : Fid → Nat → Bool} {r : Run (step P) init}

/-- Whoever has the lock releases it, with `unlock()` or by waiting. -/
def Releases (r : Run (step P) init) : Prop := ∀ i x, (r.st i).mtx = some x → ∃ j, i < j ∧ (r.st j).mtx ≠ some x

/-- The waiting call that a fiber is in. -/
def opAt : Pc → Option Op
  | .eval op | .lastEval op | .entry op | .unlocking op | .enqueuing op | .waiting op _ | .unlink op _ | .relock op _ => some op
  | .idle | .locking | .notifyOne | .notifyAll => none

/-! ## Steps -/

/-- What a step does not change. -/
theorem frame {s s' : State} {o : List Obs} {e : Event} (hs : step P s e = some (s', o)) :
    (∀ f, e ≠ .run f → s.pc f ≠ .idle → s'.pc f = s.pc f) ∧ (∀ f, e ≠ .run f → s.c.ready f = true → s'.c.ready f = true) ∧ s.now ≤ s'.now ∧
      (∀ x, s.mtx = some x → s'.mtx = some x ∨ s'.mtx = none) := by
  cases e with
  | run g =>
    simp only [step, run] at hs
    (repeat' split at hs) <;> simp only [Option.some.injEq, Prod.mk.injEq, reduceCtorEq] at hs <;> obtain ⟨rfl, rfl⟩ := hs <;>
      refine ⟨fun f he _ => ?_, fun f he h => ?_, ?_, fun x h => ?_⟩ <;>
      first
      | (have hg : f ≠ g := by (rintro rfl; exact he rfl)); simp [hg, h, consumeReady, enqueue, createWaker]; done
      | (have hg : f ≠ g := by (rintro rfl; exact he rfl)); simp [hg]; done
      | (simp_all; done)
      | exact notifyOne_ready_mono h
      | exact notifyAll_ready_mono h
  | timer g =>
    simp only [step] at hs
    (repeat' split at hs) <;> simp only [Option.some.injEq, Prod.mk.injEq, reduceCtorEq] at hs
    all_goals obtain ⟨rfl, rfl⟩ := hs
    all_goals refine ⟨fun _ _ _ => rfl, fun f _ h => ?_, Nat.le_refl _, fun x h => .inl h⟩
    all_goals (simp only [wake]; split <;> simp [upd_apply, h])
  | tick n => simp only [step, Option.some.injEq, Prod.mk.injEq] at hs; obtain ⟨rfl, rfl⟩ := hs; simp_all
  | _ =>
    simp only [step] at hs
    split at hs <;> simp only [Option.some.injEq, Prod.mk.injEq, reduceCtorEq] at hs
    obtain ⟨rfl, rfl⟩ := hs
    refine ⟨fun f _ h => ?_, fun f _ h => h, Nat.le_refl _, fun x h => ?_⟩ <;> grind [upd_apply]

theorem now_le {i j : Nat} (hij : i ≤ j) : (r.st i).now ≤ (r.st j).now := by
  obtain ⟨d, rfl⟩ := Nat.le.dest hij
  clear hij
  induction d with
  | zero => exact Nat.le_refl _
  | succ d ih => exact Nat.le_trans ih (frame (r.next (i + d))).2.2.1

/-- The lock is free again and again. -/
theorem mtx_free (hr : Releases r) (i : Nat) : ∃ j, i ≤ j ∧ (r.st j).mtx = none := by
  refine Classical.byContradiction fun hno => ?_
  have hne : ∀ j, i ≤ j → (r.st j).mtx ≠ none := fun j hj h => hno ⟨j, hj, h⟩
  obtain ⟨x, hx⟩ := Option.ne_none_iff_exists'.1 (hne i (Nat.le_refl _))
  have hall : ∀ d, (r.st (i + d)).mtx = some x := by
    intro d
    induction d with
    | zero => exact hx
    | succ d ih => exact ((frame (r.next (i + d))).2.2.2 x ih).resolve_right (hne _ (by omega))
  obtain ⟨j, hj, h⟩ := hr i x hx
  have := hall (j - i)
  rw [Nat.add_sub_cancel' (by omega)] at this
  exact h this

/-- The spinlock of the condition variable is free again and again. -/
theorem splk_free (hf : r.Fair Event.run) (i : Nat) : ∃ j, i ≤ j ∧ (r.st j).splk = none := by
  have enq : ∀ i f op, (r.st i).pc f = .enqueuing op → ∃ j, i ≤ j ∧ (r.st j).splk = none := by
    intro i f op hp
    obtain ⟨j, hj, h, he⟩ := r.leads hf (f := f) (P := fun j => (r.st j).pc f = .enqueuing op) hp
      (fun j _ h he => by rw [(frame (r.next j)).1 f he (by rw [h]; simp)]; exact h) (fun j h => by simp [step, run, h])
    have hn := r.next j
    rw [he] at hn
    simp only [step, run, h, Option.some.injEq, Prod.mk.injEq] at hn
    exact ⟨j + 1, by omega, by rw [← hn.1]⟩
  cases hs : (r.st i).splk with
  | none => exact ⟨i, Nat.le_refl _, hs⟩
  | some f =>
    have h1 := ((reach_inv (r.reach i)).sp f).1 hs
    cases hp : (r.st i).pc f <;> rw [hp] at h1 <;> simp [hasSplk] at h1
    · rename_i op
      obtain ⟨j, hj, h, he⟩ := r.leads hf (f := f) (P := fun j => (r.st j).pc f = .unlocking op) hp
        (fun j _ h he => by rw [(frame (r.next j)).1 f he (by rw [h]; simp)]; exact h) (fun j h => by simp [step, run, h])
      have hn := r.next j
      rw [he] at hn
      simp only [step, run, h, Option.some.injEq, Prod.mk.injEq] at hn
      obtain ⟨m, hm, h2⟩ := enq (j + 1) f op (by rw [← hn.1]; simp)
      exact ⟨m, by omega, h2⟩
    · exact enq i f _ hp

/-- Whoever is not asleep goes on, when the locks it needs are released. -/
theorem advance (hf : r.Strong Event.run) {i : Nat} {f : Fid} (h : (r.st i).pc f ≠ .idle)
    (hr : ((r.st i).pc f = .locking ∨ ∃ op st, (r.st i).pc f = .relock op st) → Releases r)
    (hw : ∀ op ep, (r.st i).pc f = .waiting op ep → (r.st i).c.ready f = true) :
    ∃ j, i ≤ j ∧ (r.st j).pc f = (r.st i).pc f ∧ r.ev j = .run f := by
  obtain ⟨j, hj, ⟨h1, _⟩, he⟩ := r.leads_strong hf (f := f) (i := i)
    (P := fun j => (r.st j).pc f = (r.st i).pc f ∧ ∀ op ep, (r.st i).pc f = .waiting op ep → (r.st j).c.ready f = true) ⟨rfl, hw⟩
    (fun j _ ⟨h1, h2⟩ he => ⟨by rw [(frame (r.next j)).1 f he (by rw [h1]; exact h)]; exact h1, fun op ep h3 => (frame (r.next j)).2.1 f he (h2 op ep h3)⟩)
    (fun j hj => by
      cases hp : (r.st i).pc f with
      | idle => exact absurd hp h
      | locking => obtain ⟨m, hm, h1⟩ := mtx_free (hr (.inl hp)) j; exact ⟨m, hm, fun ⟨h2, _⟩ => by simp [step, run, h2, h1]⟩
      | relock op st => obtain ⟨m, hm, h1⟩ := mtx_free (hr (.inr ⟨_, _, hp⟩)) j; exact ⟨m, hm, fun ⟨h2, _⟩ => by simp [step, run, h2, h1]⟩
      | entry op => obtain ⟨m, hm, h1⟩ := splk_free hf.fair j; exact ⟨m, hm, fun ⟨h2, _⟩ => by simp [step, run, h2, h1]⟩
      | unlink op ep => obtain ⟨m, hm, h1⟩ := splk_free hf.fair j; exact ⟨m, hm, fun ⟨h2, _⟩ => by simp [step, run, h2, h1]⟩
      | notifyOne => obtain ⟨m, hm, h1⟩ := splk_free hf.fair j; exact ⟨m, hm, fun ⟨h2, _⟩ => by simp [step, run, h2, h1]⟩
      | notifyAll => obtain ⟨m, hm, h1⟩ := splk_free hf.fair j; exact ⟨m, hm, fun ⟨h2, _⟩ => by simp [step, run, h2, h1]⟩
      | eval op => exact ⟨j, Nat.le_refl _, fun ⟨h2, _⟩ => by simp only [step, run, h2]; split <;> simp⟩
      | waiting op ep =>
        refine ⟨j, Nat.le_refl _, fun ⟨h2, h3⟩ => ?_⟩
        simp only [step, run, h2, h3 op ep rfl, if_true]
        (repeat' split) <;> simp
      | _ => exact ⟨j, Nat.le_refl _, fun ⟨h2, _⟩ => by simp [step, run, h2]⟩)
  exact ⟨j, hj, h1, he⟩

/-! ## Notifications return -/

theorem notify_one_ends (hf : r.Strong Event.run) {i : Nat} {f : Fid} (h : r.ev i = .notifyOne f) :
    ∃ j, i < j ∧ ∃ w t, .notifiedOne f w t ∈ r.ob j := by
  have hn := r.next i
  rw [h] at hn
  simp only [step] at hn
  split at hn <;> simp only [Option.some.injEq, Prod.mk.injEq, reduceCtorEq] at hn
  have hp : (r.st (i + 1)).pc f = .notifyOne := by rw [← hn.1]; simp
  obtain ⟨j, hj, h1, he⟩ := advance hf (f := f) (i := i + 1) (by simp [hp]) (by simp [hp]) (by simp [hp])
  have hn := r.next j
  rw [he] at hn
  simp only [step, run, h1, hp] at hn
  split at hn <;> simp only [Option.some.injEq, Prod.mk.injEq, reduceCtorEq] at hn
  exact ⟨j, by omega, _, _, by rw [← hn.2]; exact List.mem_singleton.2 rfl⟩

theorem notify_all_ends (hf : r.Strong Event.run) {i : Nat} {f : Fid} (h : r.ev i = .notifyAll f) :
    ∃ j, i < j ∧ ∃ ws t, .notifiedAll f ws t ∈ r.ob j := by
  have hn := r.next i
  rw [h] at hn
  simp only [step] at hn
  split at hn <;> simp only [Option.some.injEq, Prod.mk.injEq, reduceCtorEq] at hn
  have hp : (r.st (i + 1)).pc f = .notifyAll := by rw [← hn.1]; simp
  obtain ⟨j, hj, h1, he⟩ := advance hf (f := f) (i := i + 1) (by simp [hp]) (by simp [hp]) (by simp [hp])
  have hn := r.next j
  rw [he] at hn
  simp only [step, run, h1, hp] at hn
  split at hn <;> simp only [Option.some.injEq, Prod.mk.injEq, reduceCtorEq] at hn
  exact ⟨j, by omega, _, _, by rw [← hn.2]; exact List.mem_singleton.2 rfl⟩

/-! ## Waits that were ended return -/

/-- Steps until a wait that was ended returns. -/
def wakeRank : Pc → Nat
  | .waiting _ _ => 3
  | .unlink _ _ => 2
  | .relock _ _ => 1
  | _ => 0

theorem wake_run {s s' : State} {f : Fid} {op : Op} {o : List Obs} (h : opAt (s.pc f) = some op) (h0 : wakeRank (s.pc f) ≠ 0)
    (hs : step P s (.run f) = some (s', o)) :
    (opAt (s'.pc f) = some op ∧ 0 < wakeRank (s'.pc f) ∧ wakeRank (s'.pc f) < wakeRank (s.pc f) ∧ ∀ op' ep, s'.pc f ≠ .waiting op' ep) ∨
      ∃ st t, .waitRet f st t ∈ o ∧ (op = .wait → .done f .void ∈ o) ∧ (∀ d, op = .until d → .done f (.status st) ∈ o) := by
  simp only [step, run] at hs
  cases hp : s.pc f <;> rw [hp] at h h0 <;> simp only [opAt, wakeRank, ne_eq, not_true_eq_false, Option.some.injEq, reduceCtorEq] at h h0 <;> subst h <;>
    simp only [hp] at hs <;> (repeat' split at hs) <;> simp only [Option.some.injEq, Prod.mk.injEq, reduceCtorEq] at hs <;> obtain ⟨rfl, rfl⟩ := hs
  all_goals first
    | (left; simp [opAt, wakeRank]; done)
    | (right; exact ⟨_, _, List.mem_cons_self .., by rintro rfl; simp [afterWait], by rintro d rfl; simp [afterWait]⟩)

/-- A wait that was ended returns. -/
theorem woken_returns (hf : r.Strong Event.run) (hr : Releases r) {f : Fid} {op : Op} : ∀ n j, opAt ((r.st j).pc f) = some op →
    wakeRank ((r.st j).pc f) ≠ 0 → wakeRank ((r.st j).pc f) ≤ n → (∀ op ep, (r.st j).pc f = .waiting op ep → (r.st j).c.ready f = true) →
    ∃ m, j ≤ m ∧ ∃ st t, .waitRet f st t ∈ r.ob m ∧ (op = .wait → .done f .void ∈ r.ob m) ∧ (∀ d, op = .until d → .done f (.status st) ∈ r.ob m) := by
  intro n
  induction n with
  | zero => intro j _ h0 h1; omega
  | succ n ih =>
    intro j h h0 h1 hw
    obtain ⟨m, hm, h2, he⟩ := advance hf (f := f) (i := j) (by intro h'; rw [h'] at h; cases h) (fun _ => hr) hw
    have hn := r.next m
    rw [he] at hn
    rcases wake_run (op := op) (by rw [h2]; exact h) (by rw [h2]; exact h0) hn with ⟨h3, h4, h5, h6⟩ | h3
    · rw [h2] at h5
      obtain ⟨m', hm', h7⟩ := ih (m + 1) h3 (by omega) (by omega) (fun op ep h' => absurd h' (h6 op ep))
      exact ⟨m', by omega, h7⟩
    · exact ⟨m, hm, h3⟩

/-- Whoever is notified waits, and is scheduled. -/
theorem notified {s s' : State} {o : List Obs} {e : Event} {f g : Fid} {t : Nat} (hi : Inv s) (hs : step P s e = some (s', o))
    (h : .notifiedOne g (some f) t ∈ o ∨ ∃ ws, .notifiedAll g ws t ∈ o ∧ f ∈ ws) :
    ∃ op ep, s'.pc f = .waiting op ep ∧ s'.c.ready f = true := by
  have live : f ∈ liveList s.c s.q → ∃ op ep, s.pc f = .waiting op ep := by
    intro hm
    obtain ⟨x, h1, _, h3⟩ := hi.w.mem_live (i := ()).1 hm
    cases hp : s.pc f <;> simp [hp, regOf] at h1
    · exact ⟨_, _, rfl⟩
    · have := (hi.w.late f x (by simp [hp, regOf, h1]) (by rw [← h1])).1
      omega
  cases e with
  | run x =>
    simp only [step, run] at hs
    (repeat' split at hs) <;> simp only [Option.some.injEq, Prod.mk.injEq, reduceCtorEq] at hs <;> obtain ⟨rfl, rfl⟩ := hs <;>
      (try (simp [afterWait] at h; done)) <;> (try (simp only [afterWait] at h; (repeat' split at h) <;> simp at h; done))
    · simp at h
      obtain ⟨rfl, h, rfl⟩ := h
      have hh := hi.w.notifyOne_eq ()
      have hm : (liveList s.c s.q).head? = some f := by rw [← hh]; exact h.symm
      obtain ⟨op, ep, hp⟩ := live (List.mem_of_head? hm)
      have hne : f ≠ g := by rintro rfl; simp_all
      refine ⟨op, ep, by simp [hne, hp], ?_⟩
      have := hi.w.ready_notifyOne () f
      simp only [hm, decide_true, Bool.or_true] at this
      exact this
    · simp at h
      obtain ⟨ws, ⟨rfl, h, rfl⟩, hm⟩ := h
      rw [h] at hm
      rw [hi.w.notifyAll_eq ()] at hm
      obtain ⟨op, ep, hp⟩ := live hm
      have hne : f ≠ g := by rintro rfl; simp_all
      refine ⟨op, ep, by simp [hne, hp], ?_⟩
      have := hi.w.ready_notifyAll () f
      simp only [hm, decide_true, Bool.or_true] at this
      exact this
  | timer x =>
    simp only [step] at hs
    (repeat' split at hs) <;> simp only [Option.some.injEq, Prod.mk.injEq, reduceCtorEq] at hs <;> obtain ⟨rfl, rfl⟩ := hs <;> simp at h
  | tick n => simp only [step, Option.some.injEq, Prod.mk.injEq] at hs; obtain ⟨rfl, rfl⟩ := hs; simp at h
  | _ =>
    simp only [step] at hs
    split at hs <;> simp only [Option.some.injEq, Prod.mk.injEq, reduceCtorEq] at hs
    obtain ⟨rfl, rfl⟩ := hs
    simp at h

/-! ## Deadlines -/

/-- How many steps are left when the deadline has passed. -/
def lateRank : Pc → Nat
  | .relock _ .noTimeout => 9
  | .eval _ => 8
  | .entry _ => 7
  | .unlocking _ => 6
  | .enqueuing _ => 5
  | .waiting _ _ => 4
  | .unlink _ _ => 3
  | .relock _ .timeout => 2
  | .lastEval _ => 1
  | _ => 0

/-- The call returns (what it returns is C12 and C13). -/
def Returns (f : Fid) (o : List Obs) : Prop := ∃ x, .done f x ∈ o

/-- The fiber is still in its call, or the call has returned. -/
theorem in_call {s s' : State} {f : Fid} {op : Op} {o : List Obs} {e : Event} (h : opAt (s.pc f) = some op) (hs : step P s e = some (s', o)) :
    opAt (s'.pc f) = some op ∨ Returns f o := by
  by_cases he : e = .run f
  · subst he
    simp only [step, run] at hs
    cases hp : s.pc f <;> rw [hp] at h <;> simp only [opAt, Option.some.injEq, reduceCtorEq] at h <;> subst h <;> simp only [hp] at hs <;>
      (repeat' split at hs) <;> simp only [Option.some.injEq, Prod.mk.injEq, reduceCtorEq] at hs <;> obtain ⟨rfl, rfl⟩ := hs
    all_goals first
      | (left; simp [opAt]; done)
      | (right; exact ⟨_, List.mem_cons_of_mem _ (List.mem_singleton.2 rfl)⟩)
      | (rename_i op st _; cases op <;> cases st <;> simp [Returns, afterWait, opAt]; done)
  · left
    rw [(frame hs).1 f he (by intro h'; rw [h'] at h; cases h)]; exact h

/-- When the deadline has passed, every step brings a call closer to its end. -/
theorem late_run {s s' : State} {f : Fid} {op : Op} {o : List Obs} {d : Nat} (h : opAt (s.pc f) = some op) (hd : op.dl = some d) (hnow : d ≤ s.now)
    (hs : step P s (.run f) = some (s', o)) :
    (opAt (s'.pc f) = some op ∧ lateRank (s'.pc f) < lateRank (s.pc f)) ∨ Returns f o := by
  simp only [step, run] at hs
  cases hp : s.pc f <;> rw [hp] at h <;> simp only [opAt, Option.some.injEq, reduceCtorEq] at h <;> subst h <;> simp only [hp] at hs <;>
    (repeat' split at hs) <;> simp only [Option.some.injEq, Prod.mk.injEq, reduceCtorEq] at hs <;> obtain ⟨rfl, rfl⟩ := hs
  all_goals first
    | (left; simp [opAt, lateRank]; done)
    | (right; exact ⟨_, List.mem_cons_of_mem _ (List.mem_singleton.2 rfl)⟩)
    | (rename_i op st _; cases op <;> cases st <;> simp [Returns, afterWait, opAt, lateRank] <;> simp [Op.dl] at hd; done)
    | (exfalso; simp_all; done)
    | (exfalso; simp_all <;> omega)
    | (exfalso; rename_i h1 _ _; rw [hd] at h1; cases h1; omega)

/-- Whoever waits with a deadline that has passed is woken. -/
theorem late_woken (ht : r.Fair Event.timer) {i : Nat} {f : Fid} {op : Op} {ep d : Nat} (hd : op.dl = some d)
    (hnow : d ≤ (r.st i).now) (hp : (r.st i).pc f = .waiting op ep) :
    ∃ j, i ≤ j ∧ (r.st j).pc f = .waiting op ep ∧ (r.st j).c.ready f = true := by
  refine Classical.byContradiction fun hno => ?_
  have hst : ∀ n, (r.st (i + n)).pc f = .waiting op ep := by
    intro n
    induction n with
    | zero => exact hp
    | succ n ih =>
      rw [← Nat.add_assoc, (frame (r.next (i + n))).1 f ?_ (by rw [ih]; simp)]
      · exact ih
      · intro he
        have hn := r.next (i + n)
        rw [he] at hn
        simp only [step, run, ih] at hn
        split at hn
        · rename_i hrd; exact hno ⟨i + n, by omega, ih, hrd⟩
        · cases hn
  have hst' : ∀ j, i ≤ j → (r.st j).pc f = .waiting op ep := fun j hj => by
    have := hst (j - i); rwa [Nat.add_sub_cancel' hj] at this
  obtain ⟨j, hj, h1, h2⟩ := r.leads ht (f := f) (P := fun j => i ≤ j) (Nat.le_refl _) (fun j _ h1 _ => by omega)
    (fun j h1 => by
      have := now_le (r := r) h1
      simp [step, hst' j h1, hd, show d ≤ (r.st j).now by omega])
  have hn := r.next j
  have hle := now_le (r := r) hj
  have hpj := hst' j hj
  rw [h2] at hn
  simp only [step, hpj, hd, show d ≤ (r.st j).now by omega, if_true, Option.some.injEq, Prod.mk.injEq] at hn
  refine hno ⟨j + 1, by omega, hst' _ (by omega), ?_⟩
  rw [← hn.1]
  have hrd := (reach_inv (r.reach j)).w.not_ready_iff (f := f) (r := ⟨(), ep, op.dl, false⟩) (by simp [hpj, regOf]) rfl
  simp only [wake]
  split
  · simp
  · rename_i hne
    cases hr : (r.st j).c.ready f with
    | true => rfl
    | false => exact absurd (hrd.1 hr) (by simpa using hne)

/-- A call with a deadline that has passed returns. -/
theorem late_returns (hf : r.Strong Event.run) (ht : r.Fair Event.timer) (hr : Releases r) {i : Nat} {f : Fid} {op : Op} {d : Nat}
    (hd : op.dl = some d) (hnow : d ≤ (r.st i).now) : ∀ n j, i ≤ j → opAt ((r.st j).pc f) = some op → lateRank ((r.st j).pc f) ≤ n →
      ∃ m, j ≤ m ∧ Returns f (r.ob m) := by
  intro n
  induction n with
  | zero =>
    intro j _ h h0
    cases hp : (r.st j).pc f <;> rw [hp] at h h0 <;> simp [opAt, lateRank] at h h0
    rename_i st; cases st <;> simp at h0
  | succ n ih =>
    intro j hj h hn
    have main : ∀ j, i ≤ j → opAt ((r.st j).pc f) = some op → lateRank ((r.st j).pc f) ≤ n + 1 →
        (∀ op ep, (r.st j).pc f = .waiting op ep → (r.st j).c.ready f = true) → ∃ m, j ≤ m ∧ Returns f (r.ob m) := by
      intro j hj h hn hrd
      obtain ⟨m, hm, h1, he⟩ := advance hf (f := f) (i := j) (by intro h'; rw [h'] at h; cases h) (fun _ => hr) hrd
      have hn' := r.next m
      rw [he] at hn'
      rcases late_run (op := op) (by rw [h1]; exact h) hd (Nat.le_trans hnow (now_le (by omega))) hn' with ⟨h3, h4⟩ | h3
      · rw [h1] at h4
        obtain ⟨m', hm', h5⟩ := ih (m + 1) (by omega) h3 (by omega)
        exact ⟨m', by omega, h5⟩
      · exact ⟨m, hm, h3⟩
    by_cases hw : ∃ op' ep, (r.st j).pc f = .waiting op' ep
    · obtain ⟨op', ep, hp⟩ := hw
      have : op' = op := by rw [hp] at h; simp [opAt] at h; exact h
      subst this
      obtain ⟨m, hm, h1, h2⟩ := late_woken ht hd (Nat.le_trans hnow (now_le hj)) hp
      obtain ⟨m', hm', h3⟩ := main m (by omega) (by rw [h1, ← hp]; exact h) (by rw [h1, ← hp]; exact hn) (fun _ _ _ => h2)
      exact ⟨m', by omega, h3⟩
    · exact main j hj h hn (fun op' ep h' => absurd ⟨op', ep, h'⟩ hw)

/-- A call begins with `called`. -/
theorem called_in {s s' : State} {f : Fid} {op : Op} {o : List Obs} {e : Event} (hs : step P s e = some (s', o)) (hc : .called f op ∈ o) :
    opAt (s'.pc f) = some op ∧ s'.data = s.data ∧ s'.pc f = start op := by
  cases e with
  | run x =>
    simp only [step, run] at hs
    (repeat' split at hs) <;> simp only [Option.some.injEq, Prod.mk.injEq, reduceCtorEq] at hs <;> obtain ⟨rfl, rfl⟩ := hs <;>
      (try (simp at hc; done)) <;> (simp only [afterWait] at hc; (repeat' split at hc) <;> simp at hc)
  | timer x =>
    simp only [step] at hs
    (repeat' split at hs) <;> simp only [Option.some.injEq, Prod.mk.injEq, reduceCtorEq] at hs <;> obtain ⟨rfl, rfl⟩ := hs <;> simp at hc
  | tick n => simp only [step, Option.some.injEq, Prod.mk.injEq] at hs; obtain ⟨rfl, rfl⟩ := hs; simp at hc
  | _ =>
    simp only [step] at hs
    split at hs <;> simp only [Option.some.injEq, Prod.mk.injEq, reduceCtorEq] at hs
    obtain ⟨rfl, rfl⟩ := hs
    simp at hc
    try (obtain ⟨rfl, rfl⟩ := hc; simp [start]; split <;> simp [opAt])

/-- A fiber that has not left its call is in it. -/
theorem still_in {i : Nat} {f : Fid} {op : Op} (hc : opAt ((r.st i).pc f) = some op) (hno : ∀ j, i ≤ j → ¬ Returns f (r.ob j)) :
    ∀ j, i ≤ j → opAt ((r.st j).pc f) = some op := by
  intro j hj
  obtain ⟨d, rfl⟩ := Nat.le.dest hj
  clear hj
  induction d with
  | zero => exact hc
  | succ d ih => exact (in_call ih (r.next (i + d))).resolve_right (hno _ (by omega))

/-- A timed call returns if its deadline passes. -/
theorem timed_ends (hf : r.Strong Event.run) (ht : r.Fair Event.timer) (hr : Releases r) {i n : Nat} {f : Fid} {op : Op} {d : Nat}
    (hd : op.dl = some d) (hn : d ≤ (r.st n).now) (hc : .called f op ∈ r.ob i) : ∃ j, i < j ∧ Returns f (r.ob j) := by
  refine Classical.byContradiction fun hno => ?_
  have h := still_in (called_in (r.next i) hc).1 (fun j hj h => hno ⟨j, by omega, h⟩) (max (i + 1) n) (by omega)
  obtain ⟨j, hj, h1⟩ := late_returns hf ht hr hd hn _ (max (i + 1) n) (by omega) h (Nat.le_refl _)
  exact hno ⟨j, by omega, h1⟩

/-! ## Predicates -/

/-- Steps until the end of a call whose predicate is true and that is not asleep. -/
def trueRank : Pc → Nat
  | .waiting _ _ => 4
  | .unlink _ _ => 3
  | .relock _ _ => 2
  | .eval _ => 1
  | .lastEval _ => 1
  | _ => 0

theorem true_run {s s' : State} {f : Fid} {op : Op} {o : List Obs} (h : opAt (s.pc f) = some op) (hop : op.hasPred = true) (h0 : trueRank (s.pc f) ≠ 0)
    (hP : P f s.data = true) (hs : step P s (.run f) = some (s', o)) :
    (opAt (s'.pc f) = some op ∧ 0 < trueRank (s'.pc f) ∧ trueRank (s'.pc f) < trueRank (s.pc f) ∧ ∀ op' ep, s'.pc f ≠ .waiting op' ep) ∨ Returns f o := by
  simp only [step, run] at hs
  cases hp : s.pc f <;> rw [hp] at h h0 <;> simp only [opAt, trueRank, ne_eq, not_true_eq_false, Option.some.injEq, reduceCtorEq] at h h0 <;> subst h <;>
    simp only [hp, hP, if_true] at hs <;> (repeat' split at hs) <;> simp only [Option.some.injEq, Prod.mk.injEq, reduceCtorEq] at hs <;> obtain ⟨rfl, rfl⟩ := hs
  all_goals first
    | (left; simp [opAt, trueRank]; done)
    | (right; exact ⟨_, List.mem_cons_of_mem _ (List.mem_singleton.2 rfl)⟩)
    | (rename_i op st _; cases op <;> cases st <;> simp [Op.hasPred] at hop <;> simp [afterWait, opAt, trueRank]; done)

/-- A call whose predicate is and remains true, and that is not asleep, returns. -/
theorem true_returns (hf : r.Strong Event.run) (hr : Releases r) {f : Fid} {op : Op} (hop : op.hasPred = true) {i : Nat}
    (hP : ∀ j, i ≤ j → P f (r.st j).data = true) : ∀ n j, i ≤ j → opAt ((r.st j).pc f) = some op →
    trueRank ((r.st j).pc f) ≠ 0 → trueRank ((r.st j).pc f) ≤ n → (∀ op ep, (r.st j).pc f = .waiting op ep → (r.st j).c.ready f = true) →
    ∃ m, j ≤ m ∧ Returns f (r.ob m) := by
  intro n
  induction n with
  | zero => intro j _ _ h0 h1; omega
  | succ n ih =>
    intro j hj h h0 h1 hw
    obtain ⟨m, hm, h2, he⟩ := advance hf (f := f) (i := j) (by intro h'; rw [h'] at h; cases h) (fun _ => hr) hw
    have hn := r.next m
    rw [he] at hn
    rcases true_run (op := op) (by rw [h2]; exact h) hop (by rw [h2]; exact h0) (hP m (by omega)) hn with ⟨h3, h4, h5, h6⟩ | h3
    · rw [h2] at h5
      obtain ⟨m', hm', h7⟩ := ih (m + 1) (by omega) h3 (by omega) (by omega) (fun op ep h' => absurd h' (h6 op ep))
      exact ⟨m', by omega, h7⟩
    · exact ⟨m, hm, h3⟩

/-- Past the predicate's evaluation: positions from which a call with a true predicate does not fall asleep again. -/
def past : Pc → Bool
  | .enqueuing _ | .waiting _ _ | .unlink _ _ | .relock _ _ | .eval _ | .lastEval _ => true
  | _ => false

theorem past_step {s s' : State} {f : Fid} {op : Op} {o : List Obs} {e : Event} (h : opAt (s.pc f) = some op) (hop : op.hasPred = true)
    (hp : past (s.pc f) = true) (hP : P f s.data = true) (hs : step P s e = some (s', o)) : past (s'.pc f) = true ∨ Returns f o := by
  by_cases he : e = .run f
  · subst he
    simp only [step, run] at hs
    cases hq : s.pc f <;> rw [hq] at h hp <;> simp only [opAt, past, Option.some.injEq, reduceCtorEq, Bool.false_eq_true] at h hp <;> subst h <;>
      simp only [hq, hP, if_true] at hs <;>
      (repeat' split at hs) <;> simp only [Option.some.injEq, Prod.mk.injEq, reduceCtorEq] at hs <;> obtain ⟨rfl, rfl⟩ := hs
    all_goals first
      | (left; simp [past]; done)
      | (right; exact ⟨_, List.mem_cons_of_mem _ (List.mem_singleton.2 rfl)⟩)
      | (rename_i op st _; cases op <;> cases st <;> simp [Op.hasPred] at hop <;> simp [afterWait, past]; done)
  · left
    rw [(frame hs).1 f he (by intro h'; rw [h'] at h; cases h)]; exact hp

/-- `notify_all` wakes everybody who is asleep. -/
theorem all_awake {s s' : State} {o : List Obs} {e : Event} {f g : Fid} {ws : List Fid} {t : Nat} (hi : Inv s) (hs : step P s e = some (s', o))
    (h : .notifiedAll g ws t ∈ o) (hf : opAt (s.pc f) ≠ none) : s'.pc f = s.pc f ∧ s.splk = none ∧
      ∀ op ep, s.pc f = .waiting op ep → s'.c.ready f = true := by
  cases e with
  | run x =>
    simp only [step, run] at hs
    (repeat' split at hs) <;> simp only [Option.some.injEq, Prod.mk.injEq, reduceCtorEq] at hs <;> obtain ⟨rfl, rfl⟩ := hs <;>
      (try (simp [afterWait] at h; done)) <;> (try (simp only [afterWait] at h; (repeat' split at h) <;> simp at h; done))
    rename_i hx hsp
    have hne : f ≠ x := by rintro rfl; rw [hx] at hf; simp [opAt] at hf
    refine ⟨by simp [hne], hsp, fun op ep hp => ?_⟩
    have h1 := hi.w.ready_notifyAll () f
    have hrd := hi.w.not_ready_iff (f := f) (r := ⟨(), ep, op.dl, false⟩) (by simp [hp, regOf]) rfl
    cases hr : s.c.ready f with
    | true => rw [hr] at h1; simpa using h1
    | false =>
      have hm : f ∈ liveList s.c s.q := (hi.w.mem_live (i := ())).2 ⟨⟨(), ep, op.dl, false⟩, by simp [hp, regOf], rfl, hrd.1 hr⟩
      simp only [hm, decide_true, Bool.or_true] at h1
      exact h1
  | timer x =>
    simp only [step] at hs
    (repeat' split at hs) <;> simp only [Option.some.injEq, Prod.mk.injEq, reduceCtorEq] at hs <;> obtain ⟨rfl, rfl⟩ := hs <;> simp at h
  | tick n => simp only [step, Option.some.injEq, Prod.mk.injEq] at hs; obtain ⟨rfl, rfl⟩ := hs; simp at h
  | _ =>
    simp only [step] at hs
    split at hs <;> simp only [Option.some.injEq, Prod.mk.injEq, reduceCtorEq] at hs
    obtain ⟨rfl, rfl⟩ := hs
    simp at h

/-- A write under the lock finds nobody between the evaluation of its predicate and the release of the lock. -/
theorem write_past {s s' : State} {o : List Obs} {e : Event} {f g : Fid} {v : Nat} {op : Op} (hi : Inv s) (hs : step P s e = some (s', o))
    (h : .wrote g v true ∈ o) (hf : opAt (s.pc f) = some op) : past (s'.pc f) = true := by
  cases e with
  | run x =>
    simp only [step, run] at hs
    (repeat' split at hs) <;> simp only [Option.some.injEq, Prod.mk.injEq, reduceCtorEq] at hs <;> obtain ⟨rfl, rfl⟩ := hs <;>
      (try (simp [afterWait] at h; done)) <;> (try (simp only [afterWait] at h; (repeat' split at h) <;> simp at h; done))
  | timer x =>
    simp only [step] at hs
    (repeat' split at hs) <;> simp only [Option.some.injEq, Prod.mk.injEq, reduceCtorEq] at hs <;> obtain ⟨rfl, rfl⟩ := hs <;> simp at h
  | tick n => simp only [step, Option.some.injEq, Prod.mk.injEq] at hs; obtain ⟨rfl, rfl⟩ := hs; simp at h
  | _ =>
    simp only [step] at hs
    split at hs <;> simp only [Option.some.injEq, Prod.mk.injEq, reduceCtorEq] at hs
    obtain ⟨rfl, rfl⟩ := hs
    simp at h
    try
      obtain ⟨rfl, rfl, h⟩ := h
      have h1 := hi.hl f
      simp only
      cases hp : s.pc f <;> simp_all [opAt, past, hasLock]

/-- A call whose predicate becomes true for good by a write under the lock returns, if `notify_all` is called after it. -/
theorem pred_ends (hf : r.Strong Event.run) (hr : Releases r) {f g h : Fid} {op : Op} (hop : op.hasPred = true) {i n m : Nat} {v t : Nat} {ws : List Fid}
    (hc : .called f op ∈ r.ob i) (hw : .wrote g v true ∈ r.ob n) (hP : ∀ j, n < j → P f (r.st j).data = true) (hm : .notifiedAll h ws t ∈ r.ob m)
    (hnm : n < m) : ∃ j, i < j ∧ Returns f (r.ob j) := by
  refine Classical.byContradiction fun hno => ?_
  obtain ⟨h1, h2, h3⟩ := called_in (r.next i) hc
  have hin := still_in h1 (fun j hj h => hno ⟨j, by omega, h⟩)
  by_cases hin' : n < i + 1
  · have hp : (r.st (i + 1)).pc f = .eval op := by rw [h3]; simp [start, hop]
    obtain ⟨j, hj, h4⟩ := true_returns hf hr hop (i := i + 1) (fun j hj => hP j (by omega)) 1 (i + 1) (Nat.le_refl _) h1 (by simp [hp, trueRank])
      (by simp [hp, trueRank]) (by simp [hp])
    exact hno ⟨j, by omega, h4⟩
  · have hpast : ∀ d, past ((r.st (n + 1 + d)).pc f) = true := by
      intro d
      induction d with
      | zero => exact write_past (reach_inv (r.reach n)) (r.next n) hw (hin n (by omega))
      | succ d ih =>
        exact (past_step (hin (n + 1 + d) (by omega)) hop ih (hP _ (by omega)) (r.next (n + 1 + d))).resolve_right (fun h => hno ⟨_, by omega, h⟩)
    have hpm := hpast (m - (n + 1))
    rw [Nat.add_sub_cancel' (by omega)] at hpm
    have hom := hin m (by omega)
    have hi := reach_inv (r.reach m)
    obtain ⟨h4, h5, h6⟩ := all_awake (f := f) hi (r.next m) hm (by rw [hom]; simp)
    have hsp := hi.sp f
    obtain ⟨j, hj, h7⟩ := true_returns hf hr hop (i := m + 1) (fun j hj => hP j (by omega)) _ (m + 1) (Nat.le_refl _) (hin _ (by omega))
      (by rw [h4]; cases hp : (r.st m).pc f <;> simp_all [past, trueRank, hasSplk]) (Nat.le_refl _)
      (fun op ep h' => h6 op ep (by rw [← h4]; exact h'))
    exact hno ⟨j, by omega, h7⟩

end Verif.CondVar
