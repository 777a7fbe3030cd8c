import Verif.QueueInv

/-!
# Properties C07 and C08: wakers and wait queues
-/

namespace Verif

/-! ## C07: a suspension is ended exactly once -/

namespace WakeSys

/-- The number of successful wake attempts aimed at fiber `f` in a trace. -/
def wins (f : Fid) (tr : List Obs) : Nat :=
  tr.countP (fun o => match o with | .attempt w true => w.ctx == f | _ => false)

/-- Relation between the state and what was observed. -/
structure Inv (s : State) (tr : List Obs) : Prop where
  issued_iff : ∀ w, w ∈ s.issued ↔ Obs.issued w ∈ tr
  issued_le : ∀ w ∈ s.issued, w.ep ≤ s.c.epoch w.ctx
  won : ∀ w, Obs.attempt w true ∈ tr → w.ep < s.c.epoch w.ctx
  once : ∀ w, tr.count (.attempt w true) ≤ 1
  run_not_ready : ∀ f, s.mode f = .running → s.c.ready f = false
  live : ∀ f, s.mode f ≠ .running → s.c.ready f = false → ⟨f, s.c.epoch f⟩ ∈ s.issued
  balance : ∀ f, wins f tr = tr.count (.resumed f) + (if s.c.ready f then 1 else 0)
  dead : ∀ w ∈ s.issued, s.mode w.ctx = .running ∨ s.c.ready w.ctx = true → w.ep < s.c.epoch w.ctx

theorem inv_init : Inv init [] := by
  constructor <;> simp [init, Ctxs.init, wins]

theorem inv_step {s s' : State} {tr o : List Obs} {e : Event} (h : Inv s tr)
    (hs : step s e = some (s', o)) : Inv s' (tr ++ o) := by
  cases e with
  | create f =>
    simp only [step, createWaker] at hs
    split at hs <;> simp only [Option.some.injEq, Prod.mk.injEq, reduceCtorEq] at hs
    rename_i hg
    obtain ⟨rfl, rfl⟩ := hs
    constructor
    · intro w; have := h.issued_iff w; simp [this]
    · intro w hw
      simp only [List.mem_append, List.mem_singleton] at hw
      rcases hw with hw | rfl
      · have := h.issued_le w hw; simp only [upd_apply]; split <;> simp_all <;> omega
      · simp
    · intro w hw; have := h.won w (by simpa using hw)
      simp only [upd_apply]; split <;> simp_all <;> omega
    · intro w; simpa using h.once w
    · intro g; simp only [upd_apply]; split
      · simp
      · exact h.run_not_ready g
    · intro g; simp only [upd_apply]; split
      · intro _ _; subst_vars; simp
      · intro h1 h2; have := h.live g h1 h2; simp [this]
    · intro g; have := h.balance g; simpa [wins] using this
    · intro w hw
      simp only [List.mem_append, List.mem_singleton] at hw
      simp only [upd_apply]
      rcases hw with hw | rfl
      · have h1 := h.dead w hw; split
        · rename_i hf; simp [hf, hg.2]
        · exact h1
      · simp [hg.2]
  | suspend f =>
    simp only [step] at hs
    split at hs <;> simp only [Option.some.injEq, Prod.mk.injEq, reduceCtorEq] at hs
    rename_i hg
    obtain ⟨rfl, rfl⟩ := hs
    constructor
    · intro w; simpa using h.issued_iff w
    · exact h.issued_le
    · intro w hw; exact h.won w (by simpa using hw)
    · intro w; simpa using h.once w
    · intro g; simp only [upd_apply]; split
      · simp
      · exact h.run_not_ready g
    · intro g; simp only [upd_apply]; split
      · intro _ h2; subst_vars; exact h.live _ (by simp [hg]) h2
      · exact h.live g
    · intro g; have := h.balance g; simpa [wins] using this
    · intro w hw; have := h.dead w hw; simp only [upd_apply]; split
      · simp_all
      · exact this
  | attempt w =>
    simp only [step] at hs
    split at hs <;> simp only [Option.some.injEq, Prod.mk.injEq, reduceCtorEq] at hs
    rename_i hg
    by_cases hl : Live s.c w
    · rw [wake_live hl] at hs
      obtain ⟨rfl, rfl⟩ := hs
      have hl' : s.c.epoch w.ctx = w.ep := hl
      have hd : ¬ (s.mode w.ctx = .running ∨ s.c.ready w.ctx = true) := by
        intro hc; have := h.dead w hg hc; omega
      constructor
      · intro x; simpa using h.issued_iff x
      · intro x hx; have := h.issued_le x hx; simp only [upd_apply]; split <;> simp_all <;> omega
      · intro x hx
        simp only [List.mem_append, List.mem_singleton, Obs.attempt.injEq, and_true] at hx
        rcases hx with hx | rfl
        · have := h.won x hx; simp only [upd_apply]; split <;> simp_all; omega
        · simp
      · intro x
        have h1 := h.once x
        by_cases hx : x = w
        · subst hx
          have : Obs.attempt x true ∉ tr := by intro hc; have := h.won x hc; omega
          simp [List.count_eq_zero.2 this]
        · simpa [Ne.symm hx] using h1
      · intro g; simp only [upd_apply]; split
        · intro hm; subst_vars; exact absurd (Or.inl hm) hd
        · exact h.run_not_ready g
      · intro g; simp only [upd_apply]; split
        · simp
        · exact h.live g
      · intro g
        have := h.balance g
        by_cases hgw : w.ctx = g
        · subst hgw
          have hr : s.c.ready w.ctx = false := by simpa using fun hc => hd (Or.inr hc)
          simp [wins, List.countP_append, hr] at this ⊢; omega
        · simp [wins, List.countP_append, hgw, Ne.symm hgw] at this ⊢; exact this
      · intro x hx; have h1 := h.issued_le x hx; have h2 := h.dead x hx
        simp only [upd_apply]; split
        · intro _; simp_all; omega
        · exact h2
    · rw [wake_dead hl] at hs
      obtain ⟨rfl, rfl⟩ := hs
      constructor
      · intro x; simpa using h.issued_iff x
      · exact h.issued_le
      · intro x hw; exact h.won x (by simpa using hw)
      · intro x; simpa using h.once x
      · exact h.run_not_ready
      · exact h.live
      · intro g; have := h.balance g; simpa [wins] using this
      · exact h.dead
  | resume f =>
    simp only [step, consumeReady] at hs
    split at hs <;> simp only [Option.some.injEq, Prod.mk.injEq, reduceCtorEq] at hs
    rename_i hg
    obtain ⟨rfl, rfl⟩ := hs
    constructor
    · intro w; simpa using h.issued_iff w
    · exact h.issued_le
    · intro w hw; exact h.won w (by simpa using hw)
    · intro w; simpa using h.once w
    · intro g; simp only [upd_apply]; split
      · simp
      · exact h.run_not_ready g
    · intro g; simp only [upd_apply]; split
      · simp
      · exact h.live g
    · intro g; have := h.balance g
      by_cases hgf : g = f
      · subst hgf; simp [wins, hg.2] at this ⊢; omega
      · simp [wins, hgf, Ne.symm hgf] at this ⊢; exact this
    · intro w hw; have h1 := h.dead w hw; simp only [upd_apply]; split
      · intro _; apply h1; right; simp_all
      · exact h1

theorem reach_inv {s : State} {tr : List Obs} (h : Reach step init s tr) : Inv s tr :=
  Reach.inv Inv inv_init (fun _ _ _ _ _ _ hi hs => inv_step hi hs) h

theorem epoch_mono_step {s s' : State} {o : List Obs} {e : Event} (hs : step s e = some (s', o)) (f : Fid) :
    s.c.epoch f ≤ s'.c.epoch f := by
  cases e <;> simp only [step, createWaker, consumeReady] at hs <;> split at hs <;>
    simp only [Option.some.injEq, Prod.mk.injEq, reduceCtorEq] at hs <;> obtain ⟨rfl, rfl⟩ := hs
  · simp only [upd_apply]; split <;> simp_all
  · simp
  · rename_i w _
    by_cases hl : Live s.c w
    · rw [wake_live hl]; have : s.c.epoch w.ctx = w.ep := hl
      simp only [upd_apply]; split <;> simp_all
    · rw [wake_dead hl]; simp
  · simp

theorem epoch_mono {s s' : State} {tr : List Obs} (h : Reach step s s' tr) (f : Fid) :
    s.c.epoch f ≤ s'.c.epoch f := by
  induction h with
  | refl => exact Nat.le_refl _
  | tail e _ he ih => exact Nat.le_trans ih (epoch_mono_step he f)

/-- **C07 (exactly one winner).** Whatever the schedule, a given waker succeeds at most once. -/
theorem wake_at_most_once {s : State} {tr : List Obs} (h : Reach step init s tr) (w : Waker) :
    tr.count (.attempt w true) ≤ 1 :=
  (reach_inv h).once w

/-- **C07 (losers have no effect).** An attempt that reports failure changes nothing. -/
theorem late_wake_no_effect {s s' : State} {w : Waker} (hs : step s (.attempt w) = some (s', [.attempt w false])) :
    s' = s := by
  simp only [step] at hs
  split at hs <;> simp only [Option.some.injEq, Prod.mk.injEq, reduceCtorEq] at hs
  by_cases hl : Live s.c w
  · rw [wake_live hl] at hs; simp at hs
  · rw [wake_dead hl] at hs; exact hs.1.symm

/-- **C07 (each resumption has its own successful wake-up).** At every moment the number of successful
wake-ups aimed at a fiber equals the number of times it was resumed, plus one if a resumption is still
outstanding; so no fiber is resumed without, or twice by, a wake-up. -/
theorem resume_balanced {s : State} {tr : List Obs} (h : Reach step init s tr) (f : Fid) :
    tr.count (.resumed f) ≤ wins f tr ∧ wins f tr ≤ tr.count (.resumed f) + 1 := by
  have := (reach_inv h).balance f
  split at this <;> omega

/-- **C07 (a party that is late stays late).** Once the fiber has created a newer waker (it blocks on
something else), every later use of an older one fails and changes nothing. -/
theorem superseded_waker_fails {s₁ s₂ s₃ s' : State} {t₁ t₃ o₂ o : List Obs} {w : Waker}
    (h₁ : Reach step init s₁ t₁) (hw : Obs.issued w ∈ t₁)
    (h₂ : step s₁ (.create w.ctx) = some (s₂, o₂)) (h₃ : Reach step s₂ s₃ t₃)
    (hs : step s₃ (.attempt w) = some (s', o)) : o = [.attempt w false] ∧ s' = s₃ := by
  have i1 := reach_inv h₁
  have hle := i1.issued_le w ((i1.issued_iff w).2 hw)
  have h2 : s₁.c.epoch w.ctx < s₂.c.epoch w.ctx := by
    simp only [step, createWaker] at h₂
    split at h₂ <;> simp only [Option.some.injEq, Prod.mk.injEq, reduceCtorEq] at h₂
    obtain ⟨rfl, rfl⟩ := h₂; simp
  have h3 := epoch_mono h₃ w.ctx
  have hd : ¬ Live s₃.c w := by unfold Live; omega
  simp only [step] at hs
  split at hs <;> simp only [Option.some.injEq, Prod.mk.injEq, reduceCtorEq] at hs
  rw [wake_dead hd] at hs
  exact ⟨hs.2.symm, hs.1.symm⟩

/-- **C07 (the same after the fiber has been resumed).** A waker that was issued before a resumption of its
fiber never succeeds after it. -/
theorem resumed_waker_fails {s₁ s₂ s₃ s' : State} {t₁ t₃ o₂ o : List Obs} {w : Waker}
    (h₁ : Reach step init s₁ t₁) (hw : Obs.issued w ∈ t₁)
    (h₂ : step s₁ (.resume w.ctx) = some (s₂, o₂)) (h₃ : Reach step s₂ s₃ t₃)
    (hs : step s₃ (.attempt w) = some (s', o)) : o = [.attempt w false] ∧ s' = s₃ := by
  have i1 := reach_inv h₁
  have h2 : w.ep < s₂.c.epoch w.ctx := by
    simp only [step, consumeReady] at h₂
    split at h₂ <;> simp only [Option.some.injEq, Prod.mk.injEq, reduceCtorEq] at h₂
    rename_i hg
    obtain ⟨rfl, rfl⟩ := h₂
    exact i1.dead w ((i1.issued_iff w).2 hw) (Or.inr hg.2)
  have h3 := epoch_mono h₃ w.ctx
  have hd : ¬ Live s₃.c w := by unfold Live; omega
  simp only [step] at hs
  split at hs <;> simp only [Option.some.injEq, Prod.mk.injEq, reduceCtorEq] at hs
  rw [wake_dead hd] at hs
  exact ⟨hs.2.symm, hs.1.symm⟩

/-- **C07 (somebody does win).** A fiber that has switched away and has not been woken yet is woken by the
first use of its current waker, which exists and was published; the attempt reports success and the fiber
becomes resumable. -/
theorem suspended_fiber_wakeable {s : State} {tr : List Obs} (h : Reach step init s tr) {f : Fid}
    (hm : s.mode f = .suspended) (hn : step s (.resume f) = none) :
    ∃ w s', w.ctx = f ∧ Obs.issued w ∈ tr ∧ step s (.attempt w) = some (s', [.attempt w true]) ∧
      step s' (.resume f) ≠ none := by
  have i := reach_inv h
  have hr : s.c.ready f = false := by
    cases hr : s.c.ready f
    · rfl
    · simp [step, hm, hr] at hn
  have hl := i.live f (by simp [hm]) hr
  have hlive : Live s.c ⟨f, s.c.epoch f⟩ := rfl
  refine ⟨⟨f, s.c.epoch f⟩, { s with c := (wake s.c ⟨f, s.c.epoch f⟩).1 }, rfl, (i.issued_iff _).1 hl, ?_, ?_⟩
  · simp [step, hl, wake_live hlive]
  · simp [step, hm, wake_live hlive]

/-- Non-vacuity: a timer and a notifier race for a suspended fiber; the notifier wins, the timer loses, the
fiber resumes once, blocks again, and the old timer loses again. -/
example : ∃ s, Reach step init s
    [.issued ⟨7, 1⟩, .suspended 7, .attempt ⟨7, 1⟩ true, .attempt ⟨7, 1⟩ false, .resumed 7,
     .issued ⟨7, 3⟩, .suspended 7, .attempt ⟨7, 1⟩ false] ∧ s.mode 7 = .suspended ∧
     step s (.resume 7) = none := by
  refine ⟨_, reach_of_exec (es := [.create 7, .suspend 7, .attempt ⟨7, 1⟩, .attempt ⟨7, 1⟩, .resume 7,
    .create 7, .suspend 7, .attempt ⟨7, 1⟩]) rfl, rfl, rfl⟩

end WakeSys

/-! ## C08: notifications release the longest-waiting live waiter -/

namespace WaitQ

/-- The specification: who is waiting, in the order they started, and who has been released but has not
returned yet (`some true`: by a notification, `some false`: by their timer). -/
structure Spec where
  waiting  : List Fid
  released : Fid → Option Bool

def Spec.init : Spec := { waiting := [], released := fun _ => none }

/-- The specification of each observation. A single notification releases precisely the longest-waiting
fiber that has not been released already, and nobody if there is none; a broadcast releases precisely the
waiting fibers; only released fibers return, each release is used up by one return, and a return that
reports "notified" was released by a notification. -/
def Spec.next (sp : Spec) : Obs → Option Spec
  | .waits f =>
    if f ∉ sp.waiting ∧ sp.released f = none then some { sp with waiting := sp.waiting ++ [f] } else none
  | .expired f =>
    if f ∈ sp.waiting then
      some { waiting := sp.waiting.filter (· ≠ f), released := upd sp.released f (some false) }
    else none
  | .notifyOne r =>
    match sp.waiting, r with
    | [], none => some sp
    | f :: rest, some g =>
      if g = f then some { waiting := rest, released := upd sp.released f (some true) } else none
    | _, _ => none
  | .notifyAll rs =>
    if rs = sp.waiting then
      some { waiting := [], released := fun f => if f ∈ rs then some true else sp.released f }
    else none
  | .returned f notified =>
    match sp.released f with
    | none => none
    | some b =>
      if notified = true ∧ b = false then none else some { sp with released := upd sp.released f none }

/-- Run the specification over a whole trace. -/
def Spec.run (sp : Spec) : List Obs → Option Spec
  | [] => some sp
  | o :: os => (sp.next o).bind (fun sp' => sp'.run os)

theorem Spec.run_append (os os' : List Obs) : ∀ sp : Spec,
    sp.run (os ++ os') = (sp.run os).bind (fun sp' => sp'.run os') := by
  induction os with
  | nil => intro sp; rfl
  | cons o os ih =>
    intro sp
    simp only [List.cons_append, Spec.run]
    cases sp.next o with
    | none => rfl
    | some sp' => exact ih sp'

def regOf : Pc → Option Reg
  | .idle => none
  | .waiting ep => some ⟨ep, none⟩
  | .timedWaiting ep d => some ⟨ep, some d⟩
  | .unlinking ep d => some ⟨ep, some d⟩

structure Inv (s : State) : Prop where
  qi : QInv s.c s.q s.now (fun f => regOf (s.pc f))
  idle : ∀ f, s.pc f = .idle → s.c.ready f = false
  waiting : ∀ f ep, s.pc f = .waiting ep → s.c.epoch f = ep + 1 → s.c.ready f = true
  timed : ∀ f ep d, s.pc f = .timedWaiting ep d → s.c.epoch f = ep + 1 → s.c.ready f = true
  unl : ∀ f ep d, s.pc f = .unlinking ep d → s.c.epoch f = ep + 1 ∧ s.c.ready f = false ∧ d ≤ s.now

structure Rel (s : State) (sp : Spec) : Prop where
  waiting : sp.waiting = (s.q.filter (fun w => Live s.c w)).map (·.ctx)
  released : ∀ f, sp.released f ≠ none ↔ ∃ r, regOf (s.pc f) = some r ∧ s.c.epoch f = r.ep + 1
  expired : ∀ f, sp.released f = some false → ∃ r d, regOf (s.pc f) = some r ∧ r.dl = some d ∧ d ≤ s.now

theorem mem_waiting {s : State} {sp : Spec} (hi : Inv s) (hr : Rel s sp) (f : Fid) :
    f ∈ sp.waiting ↔ ∃ r, regOf (s.pc f) = some r ∧ s.c.epoch f = r.ep := by
  rw [hr.waiting]
  simp only [List.mem_map, List.mem_filter, decide_eq_true_eq]
  constructor
  · rintro ⟨w, ⟨hw, hl⟩, rfl⟩
    obtain ⟨dl, h⟩ := hi.qi.mem w hw
    exact ⟨_, h, hl⟩
  · rintro ⟨r, h1, h2⟩
    exact ⟨⟨f, r.ep⟩, ⟨(hi.qi.live f r h1 h2).1, h2⟩, rfl⟩

theorem nodup_waiting {s : State} {sp : Spec} (hi : Inv s) (hr : Rel s sp) : sp.waiting.Nodup := by
  rw [hr.waiting]
  exact List.Nodup.sublist (List.Sublist.map _ List.filter_sublist) hi.qi.nodup

theorem inv_init : Inv init := by
  constructor
  · exact QInv.init.congr (by intro f; rfl)
  all_goals simp [init, Ctxs.init]

theorem inv_step {s s' : State} {o : List Obs} {e : Event} (h : Inv s)
    (hs : step s e = some (s', o)) : Inv s' := by
  obtain ⟨qi, h1, h2, h3, h4⟩ := h
  cases e with
  | wait f =>
    simp only [step] at hs
    split at hs <;> simp only [Option.some.injEq, Prod.mk.injEq, reduceCtorEq] at hs
    rename_i hg
    obtain ⟨rfl, rfl⟩ := hs
    constructor
    · exact qi.enqueue (f := f) (dl := none) (by simp [hg, regOf]) (h1 f hg)
        (by intro g; simp only [upd_apply]; split <;> simp [regOf])
    all_goals simp only [enqueue, createWaker]; intro g; simp only [upd_apply]; grind
  | waitUntil f d =>
    simp only [step] at hs
    split at hs <;> simp only [Option.some.injEq, Prod.mk.injEq, reduceCtorEq] at hs
    rename_i hg
    obtain ⟨rfl, rfl⟩ := hs
    constructor
    · exact qi.enqueue (f := f) (dl := some d) (by simp [hg, regOf]) (h1 f hg)
        (by intro g; simp only [upd_apply]; split <;> simp [regOf])
    all_goals simp only [enqueue, createWaker]; intro g; simp only [upd_apply]; grind
  | tick n =>
    simp only [step, Option.some.injEq, Prod.mk.injEq] at hs
    obtain ⟨rfl, rfl⟩ := hs
    constructor
    · exact qi.frame (by simp) (by simp) (by simp)
    all_goals simp only; grind
  | timer f =>
    simp only [step] at hs
    split at hs <;> try simp only [reduceCtorEq] at hs
    rename_i ep d hp
    split at hs <;> simp only [Option.some.injEq, Prod.mk.injEq, reduceCtorEq] at hs
    rename_i hd
    obtain ⟨rfl, rfl⟩ := hs
    have hreg : regOf (s.pc f) = some ⟨ep, some d⟩ := by simp [hp, regOf]
    have hw := wake_changed s.c ⟨f, ep⟩
    have hn : ∀ g, g ≠ f → _ := fun g (hg : g ≠ f) => wake_epoch_ne s.c ⟨f, ep⟩ (f := g) hg
    constructor
    · exact qi.timer (f := f) (r := ⟨ep, some d⟩) hreg rfl hd
    all_goals simp only; intro g; have := hw g; have := hn g; have := qi.bound g; grind [regOf]
  | notifyOne =>
    simp only [step, Option.some.injEq, Prod.mk.injEq] at hs
    obtain ⟨rfl, rfl⟩ := hs
    have hw := notifyOne_changed s.c s.q
    have hn : ∀ g, _ := fun g (hg : regOf (s.pc g) = none) =>
      notifyOne_frame (c := s.c) (qi.not_mem_of_none hg)
    constructor
    · exact qi.notifyOne
    all_goals simp only; intro g; have := hw g; have := hn g; have := qi.notifyOne.bound g; grind [regOf]
  | notifyAll =>
    simp only [step, Option.some.injEq, Prod.mk.injEq] at hs
    obtain ⟨rfl, rfl⟩ := hs
    have hw := notifyAll_changed (c := s.c) qi.nodup
    have hn : ∀ g, _ := fun g (hg : regOf (s.pc g) = none) =>
      notifyAll_frame (c := s.c) (qi.not_mem_of_none hg)
    constructor
    · exact qi.notifyAll
    all_goals simp only; intro g; have := hw g; have := hn g; have := qi.notifyAll.bound g; grind [regOf]
  | resume f =>
    simp only [step] at hs
    split at hs <;> try simp only [reduceCtorEq] at hs
    rename_i hr
    split at hs <;> try simp only [reduceCtorEq] at hs
    · rename_i ep hp
      simp only [Option.some.injEq, Prod.mk.injEq] at hs
      obtain ⟨rfl, rfl⟩ := hs
      have hreg : regOf (s.pc f) = some ⟨ep, none⟩ := by simp [hp, regOf]
      constructor
      · have hu := qi.unlinked (f := f) hreg hr (by simp)
        have := qi.leave (f := f) (reg' := fun g => regOf (upd s.pc f .idle g)) hreg
          (by intro g; simp only [upd_apply]; split <;> simp [regOf])
        rwa [filter_ne_of_not_mem hu] at this
      all_goals simp only [consumeReady]; intro g; simp only [upd_apply]; grind
    · rename_i ep d hp
      have hreg : regOf (s.pc f) = some ⟨ep, some d⟩ := by simp [hp, regOf]
      split at hs
      · rename_i hd
        simp only [Option.some.injEq, Prod.mk.injEq] at hs
        obtain ⟨rfl, rfl⟩ := hs
        constructor
        · have hu := qi.unlinked (f := f) hreg hr (by simpa using hd)
          have := qi.leave (f := f) (reg' := fun g => regOf (upd s.pc f .idle g)) hreg
            (by intro g; simp only [upd_apply]; split <;> simp [regOf])
          rwa [filter_ne_of_not_mem hu] at this
        all_goals simp only [consumeReady]; intro g; simp only [upd_apply]; grind
      · rename_i hd
        simp only [Option.some.injEq, Prod.mk.injEq] at hs
        obtain ⟨rfl, rfl⟩ := hs
        have hb := qi.bound f _ hreg
        have hl := qi.live f _ hreg
        constructor
        · refine QInv.congr (reg := fun g => regOf (s.pc g))
            (qi.frame (Nat.le_refl _) (by simp [consumeReady]) ?_) ?_
          · intro g r _ _ hx; simp only [consumeReady, upd_apply]; split <;> simp_all
          · intro g; simp only [upd_apply]; split <;> simp_all [regOf]
        all_goals simp only [consumeReady]; intro g; simp only [upd_apply]; grind
  | unlink f =>
    simp only [step] at hs
    split at hs <;> simp only [Option.some.injEq, Prod.mk.injEq, reduceCtorEq] at hs
    rename_i ep d hp
    obtain ⟨rfl, rfl⟩ := hs
    have hreg : regOf (s.pc f) = some ⟨ep, some d⟩ := by simp [hp, regOf]
    have hu := h4 f ep d hp
    constructor
    · have := qi.leave (f := f) (reg' := fun g => regOf (upd s.pc f .idle g)) hreg
          (by intro g; simp only [upd_apply]; split <;> simp [regOf])
      rwa [consumeReady_of_not hu.2.1] at this
    all_goals simp only [consumeReady]; intro g; simp only [upd_apply]; grind
  | elsewhere f n =>
    simp only [step] at hs
    split at hs <;> simp only [Option.some.injEq, Prod.mk.injEq, reduceCtorEq] at hs
    rename_i hg
    obtain ⟨rfl, rfl⟩ := hs
    constructor
    · refine qi.frame (Nat.le_refl _) ?_ (by simp)
      intro g hgg; simp only [upd_apply]; split
      · subst_vars; simp [hg, regOf] at hgg
      · rfl
    all_goals intro g; simp only [upd_apply]; grind

theorem filter_live_congr {q : List Waker} {c c' : Ctxs} (h : ∀ w ∈ q, (Live c' w ↔ Live c w)) :
    q.filter (fun w => decide (Live c' w)) = q.filter (fun w => decide (Live c w)) := by
  apply List.filter_congr; intro w hw; simp [h w hw]

theorem rel_step {s s' : State} {sp : Spec} {o : List Obs} {e : Event} (hi : Inv s) (hr : Rel s sp)
    (hs : step s e = some (s', o)) : ∃ sp', sp.run o = some sp' ∧ Rel s' sp' := by
  have hmw := mem_waiting hi hr
  have hnw := nodup_waiting hi hr
  obtain ⟨qi, h1, h2, h3, h4⟩ := hi
  obtain ⟨r1, r2, r3⟩ := hr
  have henq : ∀ f p dl, s.pc f = .idle → regOf p = some ⟨s.c.epoch f + 1, dl⟩ →
      ∃ sp', sp.run [.waits f] = some sp' ∧
        Rel { s with c := (enqueue s.c s.q f).1, q := (enqueue s.c s.q f).2, pc := upd s.pc f p } sp' := by
    intro f p dl hg hp
    have hw : f ∉ sp.waiting := by rw [hmw f]; simp [hg, regOf]
    have hrl : sp.released f = none := by
      have := r2 f; simp [hg, regOf] at this; exact this
    refine ⟨{ sp with waiting := sp.waiting ++ [f] }, by simp [Spec.run, Spec.next, hw, hrl], ?_⟩
    constructor
    · simp only [enqueue, createWaker, List.filter_append, List.map_append, r1]
      congr 1
      · congr 1
        symm; apply filter_live_congr
        intro w hw; have hne : w.ctx ≠ f := qi.not_mem_of_none (by simp [hg, regOf]) w hw
        simp [Live, hne]
      · simp [Live]
    · intro g; have := r2 g; simp only [enqueue, createWaker, upd_apply]
      by_cases hgf : g = f
      · subst hgf; simp [hp, hrl]
      · simpa [hgf] using this
    · intro g; have := r3 g; simp only [upd_apply]
      by_cases hgf : g = f
      · subst hgf; simp [hrl]
      · simpa [hgf] using this
  cases e with
  | wait f =>
    simp only [step] at hs
    split at hs <;> simp only [Option.some.injEq, Prod.mk.injEq, reduceCtorEq] at hs
    rename_i hg
    obtain ⟨rfl, rfl⟩ := hs
    exact henq f _ none hg (by simp [regOf])
  | waitUntil f d =>
    simp only [step] at hs
    split at hs <;> simp only [Option.some.injEq, Prod.mk.injEq, reduceCtorEq] at hs
    rename_i hg
    obtain ⟨rfl, rfl⟩ := hs
    exact henq f _ (some d) hg (by simp [regOf])
  | tick n =>
    simp only [step, Option.some.injEq, Prod.mk.injEq] at hs
    obtain ⟨rfl, rfl⟩ := hs
    refine ⟨sp, rfl, r1, r2, ?_⟩
    intro f hf; obtain ⟨r, d, ha, hb, hc⟩ := r3 f hf
    exact ⟨r, d, ha, hb, by simp only; omega⟩
  | timer f =>
    simp only [step] at hs
    split at hs <;> try simp only [reduceCtorEq] at hs
    rename_i ep d hp
    split at hs <;> simp only [Option.some.injEq, Prod.mk.injEq, reduceCtorEq] at hs
    rename_i hd
    obtain ⟨rfl, rfl⟩ := hs
    have hreg : regOf (s.pc f) = some ⟨ep, some d⟩ := by simp [hp, regOf]
    by_cases hl : Live s.c ⟨f, ep⟩
    · have hw : f ∈ sp.waiting := (hmw f).2 ⟨_, hreg, hl⟩
      rw [wake_live hl]
      refine ⟨_, by simp [Spec.run, Spec.next, hw]; rfl, ?_⟩
      constructor
      · simp only [r1, List.filter_map, List.filter_filter]
        congr 1
        apply List.filter_congr
        intro w hwq
        by_cases hwf : w.ctx = f
        · obtain ⟨dl, hm⟩ := qi.mem w hwq
          rw [hwf, hreg] at hm
          cases hm
          simp [Live, hwf]
        · simp only [Live, upd_other _ _ hwf, Function.comp, hwf]; simp; rfl
      · intro g; have := r2 g; simp only [upd_apply]
        by_cases hgf : g = f
        · subst hgf; simp [hreg]
        · simpa [hgf] using this
      · intro g; have := r3 g; simp only [upd_apply]
        by_cases hgf : g = f
        · subst hgf; simp [hreg, hd]
        · simpa [hgf] using this
    · rw [wake_dead hl]
      exact ⟨sp, rfl, r1, r2, r3⟩
  | notifyOne =>
    simp only [step, Option.some.injEq, Prod.mk.injEq] at hs
    obtain ⟨rfl, rfl⟩ := hs
    rcases notifyOne_cases s.c s.q with ⟨ha, hb⟩ | ⟨pre, w, post, ha, hb, hc, hd⟩
    · rw [hb]
      have hnil : s.q.filter (fun w => decide (Live s.c w)) = [] := by
        rw [List.filter_eq_nil_iff]; simpa using ha
      rw [hnil] at r1
      refine ⟨sp, by simp [Spec.run, Spec.next, r1], ?_, r2, r3⟩
      simp [r1]
    · rw [hd]
      have hwl : w.ep + 1 = s.c.epoch w.ctx + 1 := by rw [show s.c.epoch w.ctx = w.ep from hc]
      have hpre : pre.filter (fun w => decide (Live s.c w)) = [] := by
        rw [List.filter_eq_nil_iff]; simpa using hb
      have hww : sp.waiting = w.ctx :: (post.filter (fun w => decide (Live s.c w))).map (·.ctx) := by
        rw [r1, ha]; simp [hpre, hc]
      obtain ⟨dl, hreg⟩ := qi.mem w (by simp [ha])
      refine ⟨{ waiting := (post.filter (fun w => decide (Live s.c w))).map (·.ctx),
                released := upd sp.released w.ctx (some true) }, by simp [Spec.run, Spec.next, hww], ?_⟩
      rw [wake_live hc]
      have hnd := qi.nodup
      rw [ha, List.map_append, List.nodup_append, List.map_cons, List.nodup_cons] at hnd
      constructor
      · simp only
        congr 1
        symm; apply filter_live_congr
        intro x hx
        have hne : x.ctx ≠ w.ctx := by
          intro he; exact hnd.2.1.1 (he ▸ List.mem_map_of_mem hx)
        simp [Live, hne]
      · intro g; have := r2 g; simp only [upd_apply]
        by_cases hgf : g = w.ctx
        · subst hgf; simp [hreg]
        · simpa [hgf] using this
      · intro g; have := r3 g; simp only [upd_apply]
        by_cases hgf : g = w.ctx
        · subst hgf; simp
        · simpa [hgf] using this
  | notifyAll =>
    simp only [step, Option.some.injEq, Prod.mk.injEq] at hs
    obtain ⟨rfl, rfl⟩ := hs
    obtain ⟨he, _, hw⟩ := notifyAll_spec s.q s.c qi.nodup
    rw [← r1] at hw
    refine ⟨_, by simp [Spec.run, Spec.next, hw]; rfl, ?_⟩
    constructor
    · simp
    · intro g; simp only [he g]
      have h5 := r2 g; have h6 := hmw g
      have h7 : (∃ w ∈ s.q, w.ctx = g ∧ Live s.c w) ↔ g ∈ sp.waiting := by
        rw [r1]; simp only [List.mem_map, List.mem_filter, decide_eq_true_eq]
        constructor
        · rintro ⟨w, a, b, c⟩; exact ⟨w, ⟨a, c⟩, b⟩
        · rintro ⟨w, ⟨a, c⟩, b⟩; exact ⟨w, a, b, c⟩
      simp only [h7]
      by_cases hgw : g ∈ sp.waiting
      · simp only [hgw, if_true]
        obtain ⟨r, hx, hy⟩ := h6.1 hgw
        simp only [ne_eq, reduceCtorEq, not_false_eq_true, true_iff]
        exact ⟨r, hx, by omega⟩
      · simpa only [hgw, if_false] using h5
    · intro g; simp only
      by_cases hgw : g ∈ sp.waiting
      · simp [hgw]
      · simpa only [hgw, if_false] using r3 g
  | resume f =>
    simp only [step] at hs
    split at hs <;> try simp only [reduceCtorEq] at hs
    rename_i hrd
    have key : ∀ r, regOf (s.pc f) = some r → s.c.epoch f = r.ep + 1 := by
      intro r hreg
      rcases qi.bound f r hreg with hb | hb
      · have := (qi.live f r hreg hb).2; simp_all
      · exact hb
    have hret : ∀ b r, regOf (s.pc f) = some r → (b = true → ∀ d, r.dl = some d → s.now < d) →
        ∃ sp', sp.run [.returned f b] = some sp' ∧
        Rel { s with c := consumeReady s.c f, pc := upd s.pc f .idle } sp' := by
      intro b r hreg hb
      have hrl := (r2 f).2 ⟨r, hreg, key r hreg⟩
      obtain ⟨b', hb'⟩ := Option.ne_none_iff_exists'.1 hrl
      have hok : ¬ (b = true ∧ b' = false) := by
        rintro ⟨rfl, rfl⟩
        obtain ⟨r', d, ha, hx, hc⟩ := r3 f hb'
        rw [hreg] at ha; cases ha
        have := hb rfl d hx; omega
      refine ⟨{ sp with released := upd sp.released f none }, by simp [Spec.run, Spec.next, hb']; simpa using hok, ?_⟩
      constructor
      · exact r1
      · intro g; have := r2 g; simp only [upd_apply, consumeReady]
        by_cases hgf : g = f
        · subst hgf; simp [regOf]
        · simpa [hgf] using this
      · intro g; have := r3 g; simp only [upd_apply]
        by_cases hgf : g = f
        · subst hgf; simp
        · simpa [hgf] using this
    split at hs <;> try simp only [reduceCtorEq] at hs
    · rename_i ep hp
      simp only [Option.some.injEq, Prod.mk.injEq] at hs
      obtain ⟨rfl, rfl⟩ := hs
      exact hret true ⟨ep, none⟩ (by simp [hp, regOf]) (by simp)
    · rename_i ep d hp
      split at hs
      · rename_i hd
        simp only [Option.some.injEq, Prod.mk.injEq] at hs
        obtain ⟨rfl, rfl⟩ := hs
        exact hret true ⟨ep, some d⟩ (by simp [hp, regOf]) (by simpa using hd)
      · simp only [Option.some.injEq, Prod.mk.injEq] at hs
        obtain ⟨rfl, rfl⟩ := hs
        refine ⟨sp, rfl, r1, ?_, ?_⟩
        · intro g; have := r2 g; simp only [upd_apply, consumeReady]
          by_cases hgf : g = f
          · subst hgf; simpa [regOf, hp] using this
          · simpa [hgf] using this
        · intro g; have := r3 g; simp only [upd_apply]
          by_cases hgf : g = f
          · subst hgf; simpa [regOf, hp] using this
          · simpa [hgf] using this
  | unlink f =>
    simp only [step] at hs
    split at hs <;> simp only [Option.some.injEq, Prod.mk.injEq, reduceCtorEq] at hs
    rename_i ep d hp
    obtain ⟨rfl, rfl⟩ := hs
    have hreg : regOf (s.pc f) = some ⟨ep, some d⟩ := by simp [hp, regOf]
    have hu := h4 f ep d hp
    have hrl := (r2 f).2 ⟨_, hreg, hu.1⟩
    obtain ⟨b', hb'⟩ := Option.ne_none_iff_exists'.1 hrl
    refine ⟨{ sp with released := upd sp.released f none }, by simp [Spec.run, Spec.next, hb'], ?_⟩
    constructor
    · simp only [r1, List.filter_filter]
      congr 1
      apply List.filter_congr
      intro w hw
      by_cases hwf : w = ⟨f, ep⟩
      · subst hwf; simp [Live, hu.1]
      · simp [hwf]
    · intro g; have := r2 g; simp only [upd_apply]
      by_cases hgf : g = f
      · subst hgf; simp [regOf]
      · simpa [hgf] using this
    · intro g; have := r3 g; simp only [upd_apply]
      by_cases hgf : g = f
      · subst hgf; simp
      · simpa [hgf] using this
  | elsewhere f n =>
    simp only [step] at hs
    split at hs <;> simp only [Option.some.injEq, Prod.mk.injEq, reduceCtorEq] at hs
    rename_i hg
    obtain ⟨rfl, rfl⟩ := hs
    refine ⟨sp, rfl, ?_, ?_, r3⟩
    · rw [r1]; congr 1; symm; apply filter_live_congr
      intro w hw; have hne : w.ctx ≠ f := qi.not_mem_of_none (by simp [hg, regOf]) w hw
      simp [Live, hne]
    · intro g; have := r2 g; simp only [upd_apply]
      by_cases hgf : g = f
      · subst hgf; simpa [hg, regOf] using this
      · simpa [hgf] using this

theorem reach_inv {s : State} {tr : List Obs} (h : Reach step init s tr) :
    Inv s ∧ ∃ sp, Spec.init.run tr = some sp ∧ Rel s sp := by
  refine Reach.inv (fun s tr => Inv s ∧ ∃ sp, Spec.init.run tr = some sp ∧ Rel s sp) ?_ ?_ h
  · refine ⟨inv_init, Spec.init, rfl, ?_⟩
    constructor <;> simp [Spec.init, init, regOf]
  · rintro s tr e s' o _ ⟨hi, sp, h1, h2⟩ hs
    refine ⟨inv_step hi hs, ?_⟩
    obtain ⟨sp', h3, h4⟩ := rel_step hi h2 hs
    exact ⟨sp', by rw [Spec.run_append, h1]; exact h3, h4⟩

/-- **C08.** Every history of a wait queue — any number of waiters, timed and untimed waits, timers firing,
single and broadcast notifications in any interleaving — obeys the specification `Spec.next`: each single
notification releases precisely the longest-waiting fiber not released yet. -/
theorem notifications_fifo {s : State} {tr : List Obs} (h : Reach step init s tr) :
    ∃ sp, Spec.init.run tr = some sp := by
  obtain ⟨_, sp, h1, _⟩ := reach_inv h
  exact ⟨sp, h1⟩

/-- **C08 (releases take effect).** In every reachable state a fiber that the specification regards as
released can proceed: it is about to be resumed, or it is unlinking itself before returning. And a fiber
that waits with an expired deadline can be released by its timer. -/
theorem released_can_return {s : State} {tr : List Obs} {sp : Spec} (h : Reach step init s tr)
    (hsp : Spec.init.run tr = some sp) (f : Fid) :
    (sp.released f ≠ none → step s (.resume f) ≠ none ∨ step s (.unlink f) ≠ none) ∧
    (sp.released f = none → step s (.resume f) = none ∧ step s (.unlink f) = none) := by
  obtain ⟨hi, sp', h1, h2⟩ := reach_inv h
  rw [hsp] at h1; cases h1
  have hr := h2.released f
  constructor
  · intro hx
    obtain ⟨r, ha, hb⟩ := hr.1 hx
    cases hp : s.pc f with
    | idle => simp [hp, regOf] at ha
    | waiting ep =>
      left; simp [hp, regOf] at ha; subst ha
      simp [step, hp, hi.waiting f ep hp hb]
    | timedWaiting ep d =>
      left; simp [hp, regOf] at ha; subst ha
      simp only [step, hp, hi.timed f ep d hp hb, if_true]; split <;> simp
    | unlinking ep d => right; simp [step, hp]
  · intro hx
    have hno : ∀ r, regOf (s.pc f) = some r → s.c.epoch f = r.ep := by
      intro r ha
      rcases hi.qi.bound f r ha with hb | hb
      · exact hb
      · exact absurd hx (hr.2 ⟨r, ha, hb⟩)
    cases hp : s.pc f with
    | idle => simp [step, hp]
    | waiting ep =>
      have hreg : regOf (s.pc f) = some ⟨ep, none⟩ := by simp [hp, regOf]
      have := (hi.qi.live f _ hreg (hno _ hreg)).2
      simp [step, this, hp]
    | timedWaiting ep d =>
      have hreg : regOf (s.pc f) = some ⟨ep, some d⟩ := by simp [hp, regOf]
      have := (hi.qi.live f _ hreg (hno _ hreg)).2
      simp [step, this, hp]
    | unlinking ep d =>
      have hreg : regOf (s.pc f) = some ⟨ep, some d⟩ := by simp [hp, regOf]
      have h5 := hno _ hreg
      have h6 := (hi.unl f ep d hp).1
      simp at h5; omega

/-- **C08 (no dangling entry).** A fiber that has returned from its wait left no entry behind (the waker
lives on the waiting fiber's stack, `src/waker.cpp:18,29`). -/
theorem returned_not_queued {s : State} {tr : List Obs} (h : Reach step init s tr) {f : Fid}
    (hf : s.pc f = .idle) : ∀ w ∈ s.q, w.ctx ≠ f :=
  (reach_inv h).1.qi.not_mem_of_none (by simp [hf, regOf])

/-- Non-vacuity: 1, 2 and 3 wait (2 with a deadline); 2 times out; two single notifications release 1 and
then 3, skipping 2; everybody returns. -/
example : ∃ s, Reach step init s
    [.waits 1, .waits 2, .waits 3, .expired 2, .notifyOne (some 1), .notifyOne (some 3), .notifyOne none,
     .returned 3 true, .returned 2 false, .returned 1 true] := by
  refine ⟨_, reach_of_exec (es := [.wait 1, .waitUntil 2 5, .elsewhere 3 4, .wait 3, .tick 5, .timer 2,
    .notifyOne, .notifyOne, .notifyOne, .resume 3, .resume 2, .unlink 2, .resume 1]) rfl⟩

/-- The specification is not trivially true: releasing the wrong fiber is rejected. -/
example : Spec.init.run [.waits 1, .waits 2, .notifyOne (some 2)] = none := by simp [Spec.run, Spec.next, Spec.init]
example : (Spec.init.run [.waits 1, .waits 2, .notifyOne none]).isNone := by simp [Spec.run, Spec.next, Spec.init]

end WaitQ
end Verif
