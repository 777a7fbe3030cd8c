import Verif.AsioLoopInv

/-!
# Fibers and asio's main loop: nothing is forgotten
-/

namespace Verif.AsioLoop
open Verif.Priority (mem_sleepIns nodup_sleepIns sorted_sleepIns mem_takeWhile)

/-! ## The dispatcher has its turn before the main fiber -/

/-- The dispatcher is in the queue, and the main fiber is not before it. -/
def ahead (q : List Nat) : Prop := ∃ a b, q = a ++ disp :: b ∧ main ∉ a

def toCome (s : State) : Prop := s.cur ≠ main ∧ (s.cur = disp ∨ ahead s.queue)

theorem ahead_append {q : List Nat} {y : Nat} (h : ahead q) : ahead (q ++ [y]) := by
  obtain ⟨a, b, rfl, hm⟩ := h; exact ⟨a, b ++ [y], by simp, hm⟩

theorem toCome_schedule {s : State} {y : Nat} (h : toCome s) : toCome (schedule s y).1 :=
  ⟨h.1, h.2.imp id fun h => ahead_append h⟩

theorem leave_toCome {s : State} {r : St} (h : ahead s.queue) : toCome (leave s r).1 ∧ (.ran disp ∉ (leave s r).2 → (leave s r).1.cur ≠ disp) := by
  obtain ⟨a, b, hq, hm⟩ := h
  cases a with
  | nil =>
    simp only [List.nil_append] at hq
    simp only [leave, hq]
    split <;> simp [toCome, schedule, awakened]
  | cons x a =>
    have hx : x ≠ main := fun e => hm (by simp [e])
    have ha : ahead (a ++ disp :: b) := ⟨a, b, rfl, fun e => hm (by simp [e])⟩
    have hq' : s.queue = x :: (a ++ disp :: b) := by rw [hq]; simp
    simp only [leave, hq']
    have hran : ∀ o : List Obs, .ran disp ∉ .ran x :: o → x ≠ disp := by intro o h e; exact h (by simp [e])
    split
    · exact ⟨⟨hx, .inr (ahead_append ha)⟩, fun h => hran _ h⟩
    · exact ⟨⟨hx, .inr ha⟩, fun h => hran _ h⟩

theorem ahead_of {s : State} (h : Base [] s) (hc : s.cur = main) : ahead s.queue := by
  have hd := (queue_ne h (by rw [hc]; simp)).1
  have hm : main ∉ s.queue := fun hm => by
    have h1 := (h.st main).2 hm
    have h2 := (h.run main).2 hc.symm
    simp [h1] at h2
  obtain ⟨a, b, hq⟩ := List.append_of_mem hd
  exact ⟨a, b, hq, fun e => hm (by rw [hq]; simp [e])⟩

/-- What a step of a fiber, or of the user in the main fiber, leaves as it is. -/
structure Keeps (s s' : State) : Prop where
  remoteq : s'.remoteq = s.remoteq
  n1 : s'.n1 = s.n1
  n2 : s'.n2 = s.n2
  waits : s'.waits = s.waits
  expiry : s'.expiry = s.expiry
  handlers : s'.handlers = s.handlers
  mpc : s'.mpc = s.mpc
  now : s'.now = s.now

theorem keeps_schedule {s : State} {y : Nat} : Keeps s (schedule s y).1 := ⟨rfl, rfl, rfl, rfl, rfl, rfl, rfl, rfl⟩

theorem keeps_leave {s : State} {r : St} : Keeps s (leave s r).1 := by
  simp only [leave]; split
  · exact ⟨rfl, rfl, rfl, rfl, rfl, rfl, rfl, rfl⟩
  · split <;> exact ⟨rfl, rfl, rfl, rfl, rfl, rfl, rfl, rfl⟩

def Event.fib : Event → Bool
  | .yield | .block | .sleep _ | .finish | .post _ | .dispatch _ | .wake _ => true
  | _ => false

/-- A step of a fiber. -/
theorem fib_step {s s' : State} {e : Event} {o : List Obs} (hb : Base [] s) (hma : Main s) (he : step s e = some (s', o)) (hf : e.fib = true) :
    Keeps s s' ∧ s.cur ≠ disp ∧ (s.cur = main → s.mpc.user = true) ∧ (ahead s.queue → s.cur ≠ main → toCome s' ∧ (.ran disp ∉ o → s'.cur ≠ disp)) := by
  cases e <;> simp only [Event.fib, reduceCtorEq] at hf <;> simp only [step] at he <;> (split at he; · cases he) <;>
    rename_i hg <;> simp only [not_or, not_and, Bool.not_eq_false] at hg
  case yield =>
    simp only [Option.some.injEq] at he
    refine ⟨by have := keeps_leave (s := s) (r := .ready); rwa [he] at this, hg.1, hg.2, fun ha _ => by have := leave_toCome (r := .ready) ha; rwa [he] at this⟩
  case block =>
    simp only [Option.some.injEq] at he
    refine ⟨by have := keeps_leave (s := s) (r := .blocked); rwa [he] at this, hg.1, hg.2, fun ha _ => by have := leave_toCome (r := .blocked) ha; rwa [he] at this⟩
  case sleep t =>
    simp only [Option.some.injEq] at he
    refine ⟨?_, hg.1, hg.2, fun ha _ => ?_⟩
    · have := keeps_leave (s := { s with sleepq := Verif.Priority.sleepIns t s.cur s.sleepq }) (r := .asleep t); rw [he] at this
      exact ⟨this.1, this.2, this.3, this.4, this.5, this.6, this.7, this.8⟩
    · have := leave_toCome (s := { s with sleepq := Verif.Priority.sleepIns t s.cur s.sleepq }) (r := .asleep t) ha; rwa [he] at this
  case finish =>
    split at he; · cases he
    simp only [Option.some.injEq] at he
    refine ⟨by have := keeps_leave (s := s) (r := .ended); rwa [he] at this, hg.1, hg.2, fun ha _ => by have := leave_toCome (r := .ended) ha; rwa [he] at this⟩
  case post y =>
    split at he
    · simp only [Option.some.injEq] at he
      refine ⟨by have := keeps_schedule (s := s) (y := y); rwa [he] at this, hg.1, hg.2, fun ha hm => ⟨by have := toCome_schedule (y := y) (s := s) ⟨hm, .inr ha⟩; rwa [he] at this, fun _ => ?_⟩⟩
      have : (schedule s y).1.cur = s.cur := rfl
      rw [he] at this; rw [this]; exact hg.1
    · cases he
  case dispatch y =>
    split at he
    · simp only [Option.some.injEq, Prod.mk.injEq] at he; obtain ⟨rfl, rfl⟩ := he
      refine ⟨⟨rfl, rfl, rfl, rfl, rfl, rfl, rfl, rfl⟩, hg.1, hg.2, fun ha hm => ?_⟩
      have hy1 : y ≠ main := by rintro rfl; exact hma.born (by assumption)
      have hy2 : y ≠ disp := by rintro rfl; have := hb.dst; simp_all
      exact ⟨⟨hy1, .inr (ahead_append ha)⟩, fun _ => hy2⟩
    · cases he
  case wake y =>
    split at he; · cases he
    have key : schedule s y = (s', o) := by split at he <;> simp_all
    refine ⟨by have := keeps_schedule (s := s) (y := y); rwa [key] at this, hg.1, hg.2, fun ha hm => ⟨by have := toCome_schedule (y := y) (s := s) ⟨hm, .inr ha⟩; rwa [key] at this, fun _ => ?_⟩⟩
    have : (schedule s y).1.cur = s.cur := rfl
    rw [key] at this; rw [this]; exact hg.1

/-! ## Wake-ups by other threads -/

/-- As long as there are fibers another thread has woken, there is someone who sees to it that the dispatcher has its turn. -/
def Kept (s : State) : Prop := s.remoteq ≠ [] → 0 < s.n1 ∨ (0 < s.n2 ∧ 0 < s.waits) ∨ .timer ∈ s.handlers ∨ toCome s

theorem woken_remoteq {s : State} : (woken s).1.remoteq = [] := by
  simp only [woken]
  rw [(scheduleAll_mpc).2.2.2.2.2.1, (scheduleAll_mpc).2.2.2.2.2.1]

theorem timer_mem {h : List H} {n : Nat} (hn : 0 < n) : H.timer ∈ h ++ List.replicate n .timer := by
  simp; omega

theorem step_kept {s s' : State} {e : Event} {o : List Obs} (hb : Base [] s) (hm : Main s) (hk : Kept s) (he : step s e = some (s', o)) : Kept s' := by
  by_cases hf : e.fib = true
  · obtain ⟨k, hd, hu, ht⟩ := fib_step hb hm he hf
    intro hr
    rw [k.remoteq] at hr
    rcases hk hr with h | h | h | h
    · exact .inl (by rw [k.n1]; exact h)
    · exact .inr (.inl (by rw [k.n2, k.waits]; exact h))
    · exact .inr (.inr (.inl (by rw [k.handlers]; exact h)))
    · rcases h.2 with h2 | h2
      · exact absurd h2 hd
      · exact .inr (.inr (.inr (ht h2 h.1).1))
  cases e <;> simp only [Event.fib, not_true_eq_false] at hf
  case tick n => simp only [step, Option.some.injEq, Prod.mk.injEq] at he; obtain ⟨rfl, rfl⟩ := he; exact hk
  case stop => simp only [step, Option.some.injEq, Prod.mk.injEq] at he; obtain ⟨rfl, rfl⟩ := he; exact hk
  case arrive k =>
    simp only [step, Option.some.injEq, Prod.mk.injEq] at he; obtain ⟨rfl, rfl⟩ := he
    intro hr
    rcases hk hr with h | h | h | h
    · exact .inl h
    · exact .inr (.inl h)
    · exact .inr (.inr (.inl (by simp [h])))
    · exact .inr (.inr (.inr h))
  case fire =>
    simp only [step] at he; split at he
    · rename_i hw
      simp only [Option.some.injEq, Prod.mk.injEq] at he; obtain ⟨rfl, rfl⟩ := he
      exact fun _ => .inr (.inr (.inl (timer_mem hw.1)))
    · cases he
  case rWait =>
    simp only [step] at he; split at he
    · simp only [Option.some.injEq, Prod.mk.injEq] at he; obtain ⟨rfl, rfl⟩ := he
      exact fun _ => .inr (.inl ⟨by simp [asyncWait], by simp [asyncWait]⟩)
    · cases he
  case rExp =>
    simp only [step] at he; split at he
    · simp only [Option.some.injEq, Prod.mk.injEq] at he; obtain ⟨rfl, rfl⟩ := he
      intro hr
      rcases hk hr with h | h | h | h
      · exact .inl h
      · exact .inr (.inr (.inl (timer_mem h.2)))
      · exact .inr (.inr (.inl (by simp [expiresAt, h])))
      · exact .inr (.inr (.inr h))
    · cases he
  case remote y =>
    simp only [step] at he
    split at he; · cases he
    split at he <;> simp only [Option.some.injEq, Prod.mk.injEq, reduceCtorEq] at he <;> (obtain ⟨rfl, rfl⟩ := he; exact fun _ => .inl (by simp))
  case turn =>
    rw [turn_eq] at he
    have hw := woken_remoteq (s := s)
    generalize (woken s).1 = w at *
    split at he
    · split at he
      · simp only [Option.some.injEq, Prod.mk.injEq] at he; obtain ⟨rfl, rfl⟩ := he
        intro hr
        exfalso; apply hr
        simp only [suspendUntil]
        split <;> split <;> first | exact hw | (rename_i h1 h2; simp only [schedule, awakened]; split <;> exact hw) | (split <;> exact hw)
      · simp only [Option.some.injEq, Prod.mk.injEq] at he; obtain ⟨rfl, rfl⟩ := he
        intro hr
        exfalso; apply hr
        rw [keeps_leave.remoteq]; exact hw
    · cases he
  case run =>
    simp only [step] at he; split at he
    · simp only [Option.some.injEq, Prod.mk.injEq] at he; obtain ⟨rfl, rfl⟩ := he
      exact hk
    · cases he
  case mainStep =>
    simp only [step] at he; split at he
    · rename_i hc
      have ha := ahead_of hb hc
      have hk' : s.remoteq ≠ [] → 0 < s.n1 ∨ (0 < s.n2 ∧ 0 < s.waits) ∨ .timer ∈ s.handlers := by
        intro hr
        rcases hk hr with h | h | h | h
        · exact .inl h
        · exact .inr (.inl h)
        · exact .inr (.inr h)
        · exact absurd hc h.1
      have hsame : ∀ m : MPc, Kept { s with mpc := m } := fun m => hk
      have hwait : ∀ r : State × List Obs, leave { s with mpc := .waiting } .blocked = r → Kept r.1 := by
        intro r hr; subst hr
        exact fun _ => .inr (.inr (.inr (leave_toCome (s := { s with mpc := .waiting }) ha).1))
      have hcall : ∀ (one : Bool) (h : H) (hs : List H) (r : State × List Obs), s.handlers = h :: hs → call { s with handlers := hs } one h = r → Kept r.1 := by
        intro one h hs r hh hr
        subst hr
        cases h with
        | user k =>
          intro hr
          rcases hk' hr with h | h | h
          · exact .inl h
          · exact .inr (.inl h)
          · exact .inr (.inr (.inl (by rw [hh] at h; simp at h; exact h)))
        | timer => exact fun _ => .inr (.inr (.inr (leave_toCome (s := { s with handlers := hs, mpc := .handler one .timer }) ha).1))
      simp only [mainStep] at he
      split at he
      · cases he
      · cases he
      · split at he
        · simp only [Option.some.injEq, Prod.mk.injEq] at he; obtain ⟨rfl, rfl⟩ := he; exact hsame _
        · split at he
          · simp only [Option.some.injEq, Prod.mk.injEq] at he; obtain ⟨rfl, rfl⟩ := he; exact hsame _
          · simp only [Option.some.injEq, Prod.mk.injEq] at he; obtain ⟨rfl, rfl⟩ := he; exact hsame _
      · split at he
        · simp only [Option.some.injEq] at he; exact hwait _ he
        · split at he
          · simp only [Option.some.injEq] at he; exact hwait _ he
          · rename_i hh; simp only [Option.some.injEq] at he; exact hcall _ _ _ _ hh he
      · simp only [Option.some.injEq, Prod.mk.injEq] at he; obtain ⟨rfl, rfl⟩ := he; exact hsame _
      · split at he
        · simp only [Option.some.injEq, Prod.mk.injEq] at he; obtain ⟨rfl, rfl⟩ := he; exact hsame _
        · split at he
          · cases he
          · rename_i hh; simp only [Option.some.injEq] at he; exact hcall _ _ _ _ hh he
      · simp only [Option.some.injEq, Prod.mk.injEq] at he; obtain ⟨rfl, rfl⟩ := he
        exact hsame _
    · cases he

theorem reach_kept {s : State} {tr : List Obs} (h : Reach step init s tr) : Kept s := by
  induction h with
  | refl => intro h; simp [init] at h
  | tail e h1 hs ih => exact step_kept (reach_inv h1).1 (reach_inv h1).2 ih hs

/-- From when the dispatcher is ahead of the main fiber, the main fiber does not run before the dispatcher has. -/
theorem toCome_reach {s0 s : State} {tr0 tr : List Obs} (h0 : Reach step init s0 tr0) (ht : toCome s0) (hd : s0.cur ≠ disp) (h : Reach step s0 s tr) (hn : .ran disp ∉ tr) : toCome s ∧ s.cur ≠ disp := by
  induction h with
  | refl => exact ⟨ht, hd⟩
  | @tail s1 s2 tr1 o e h1 hs ih =>
    obtain ⟨ht, hd⟩ := ih (fun hh => hn (by simp [hh]))
    have hr := h0.trans h1
    obtain ⟨hb, hm⟩ := reach_inv hr
    have ha : ahead s1.queue := by rcases ht.2 with h | h; exact absurd h hd; exact h
    have hn2 : .ran disp ∉ o := fun hh => hn (by simp [hh])
    by_cases hf : e.fib = true
    · obtain ⟨k, _, _, h2⟩ := fib_step hb hm hs hf
      exact ⟨(h2 ha ht.1).1, (h2 ha ht.1).2 hn2⟩
    · cases e <;> simp only [Event.fib, not_true_eq_false] at hf <;> simp only [step] at hs
      case turn => simp [hd] at hs
      case mainStep => simp [ht.1] at hs
      case run => simp [ht.1] at hs
      all_goals (repeat' split at hs) <;> simp only [Option.some.injEq, Prod.mk.injEq, reduceCtorEq] at hs <;> (obtain ⟨rfl, rfl⟩ := hs; exact ⟨ht, hd⟩)

/-! ## A turn of the dispatcher -/

theorem scheduleAll_mem {y : Nat} : ∀ {l : List Nat} {s : State}, y ∈ l → .ready y ∈ (scheduleAll s l).2 := by
  intro l
  induction l with
  | nil => intro s h; simp at h
  | cons z l ih =>
    intro s h
    simp only [scheduleAll]
    rcases List.mem_cons.1 h with rfl | h
    · simp [schedule]
    · have := ih (s := (schedule s z).1) h; simp only [List.mem_append]; exact .inr this

theorem scheduleAll_st : ∀ {l : List Nat} {s : State} {z : Nat}, z ∉ l → (scheduleAll s l).1.st z = s.st z := by
  intro l
  induction l with
  | nil => intro s z _; rfl
  | cons y l ih =>
    intro s z hz
    have := ih (s := (schedule s y).1) (z := z) (fun hh => hz (by simp [hh]))
    rw [schedule_st (fun e => hz (by simp [e]))] at this
    exact this

theorem woken_ready {s : State} {x : Nat} (h : Base [] s) (hx : s.st x = .remote ∨ ∃ t, s.st x = .asleep t ∧ t ≤ s.now) : .ready x ∈ (woken s).2 := by
  have h0 : Base s.remoteq { s with remoteq := [] } :=
    ⟨h.nodup, h.st, h.run, h.dst, h.counter, by have := h.rst; simpa using this, by have := h.rnodup; simpa using this, h.sst, h.snodup, h.sorted⟩
  have h1 := scheduleAll_remote h0
  have f2 := (scheduleAll_mpc (l := s.remoteq) (s := { s with remoteq := [] })).2.2.2.2.2.2.1
  simp only [woken, List.mem_append]
  rcases hx with hx | ⟨t, hx, ht⟩
  · left
    have := (h.rst x).2 hx
    exact scheduleAll_mem (s := { s with remoteq := [] }) (by simpa using this)
  · right
    have hnr : x ∉ s.remoteq := fun hm => by have := (h.rst x).1 (by simp [hm]); simp [hx] at this
    have h2 : (t, x) ∈ (scheduleAll { s with remoteq := [] } s.remoteq).1.sleepq := (h1.sst x t).2 (by rw [scheduleAll_st hnr]; exact hx)
    have h3 := mem_takeWhile (n := (scheduleAll { s with remoteq := [] } s.remoteq).1.now) h1.sorted h2 (by rw [f2]; exact ht)
    exact scheduleAll_mem (s := (scheduleAll { s with remoteq := [] } s.remoteq).1) (List.mem_map (f := fun a : Nat × Nat => a.2) |>.2 ⟨_, h3, rfl⟩)

/-! ## How long a fiber waits in the queue -/

def runs (tr : List Obs) : Nat := tr.countP (fun o => match o with | .ran _ => true | _ => false)

theorem runs_append {a b : List Obs} : runs (a ++ b) = runs a + runs b := by simp [runs]

theorem idx_cons_ne {a x : Nat} {q : List Nat} (h : a ≠ x) : (a :: q).idxOf x = q.idxOf x + 1 := Verif.Priority.idx_cons_ne h

theorem idx_append {x y : Nat} {q : List Nat} (hx : x ∈ q) : (q ++ [y]).idxOf x = q.idxOf x := by
  induction q with
  | nil => simp at hx
  | cons a q ih =>
    by_cases ha : a = x
    · subst ha; simp
    · rw [List.cons_append, idx_cons_ne ha, idx_cons_ne ha, ih (by grind)]

structure Near (x : Nat) (s s' : State) (n : Nat) : Prop where
  mem : x ∈ s'.queue
  idx : n + s'.queue.idxOf x ≤ s.queue.idxOf x

theorem Near.trans {x : Nat} {s s1 s2 : State} {m n : Nat} (h1 : Near x s s1 m) (h2 : Near x s1 s2 n) : Near x s s2 (m + n) :=
  ⟨h2.mem, by have := h1.idx; have := h2.idx; omega⟩

theorem near_schedule {x y : Nat} {s : State} (hx : x ∈ s.queue) : Near x s (schedule s y).1 0 := by
  refine ⟨by simp [schedule, awakened, hx], ?_⟩
  simp only [schedule, awakened]
  rw [idx_append hx]; omega

theorem near_scheduleAll {x : Nat} : ∀ {l : List Nat} {s : State}, x ∈ s.queue → Near x s (scheduleAll s l).1 0 ∧ runs (scheduleAll s l).2 = 0 := by
  intro l
  induction l with
  | nil => intro s hx; exact ⟨⟨hx, by simp [scheduleAll]⟩, rfl⟩
  | cons y l ih =>
    intro s hx
    have h1 := near_schedule (y := y) hx
    have h2 := ih (s := (schedule s y).1) h1.mem
    refine ⟨h1.trans h2.1, ?_⟩
    simp only [scheduleAll, runs_append, h2.2]; rfl

theorem near_leave {x : Nat} {s : State} {r : St} (hx : x ∈ s.queue) (ho : .ran x ∉ (leave s r).2) : Near x s (leave s r).1 (runs (leave s r).2) := by
  cases hq : s.queue with
  | nil => simp [hq] at hx
  | cons a q =>
    simp only [leave, hq] at ho ⊢
    rw [hq] at hx
    have ha : a ≠ x := by rintro rfl; apply ho; split <;> simp
    have hxq : x ∈ q := by grind
    by_cases hr : r = .ready
    · simp only [hr, if_true] at ho ⊢
      refine ⟨by simp [schedule, awakened, hxq], ?_⟩
      simp only [schedule, awakened]
      rw [idx_append hxq, hq, idx_cons_ne ha]
      simp [runs]; omega
    · simp only [hr, if_false] at ho ⊢
      refine ⟨hxq, ?_⟩
      rw [hq, idx_cons_ne ha]
      simp [runs]; omega

theorem near_step {x : Nat} {s s' : State} {e : Event} {o : List Obs} (hx : x ∈ s.queue) (he : step s e = some (s', o)) (ho : .ran x ∉ o) : Near x s s' (runs o) := by
  have same : ∀ s2 : State, s2.queue = s.queue → Near x s s2 0 := fun s2 h => ⟨by rw [h]; exact hx, by rw [h]; omega⟩
  have hl : ∀ (s1 : State) (r : St) (p : State × List Obs), s1.queue = s.queue → leave s1 r = p → .ran x ∉ p.2 → Near x s p.1 (runs p.2) := by
    intro s1 r p h1 h2 h3
    subst h2
    have := near_leave (s := s1) (x := x) (r := r) (by rw [h1]; exact hx) h3
    exact ⟨this.mem, by rw [← h1]; exact this.idx⟩
  have hc : ∀ (s1 : State) (one : Bool) (h : H) (p : State × List Obs), s1.queue = s.queue → call s1 one h = p → .ran x ∉ p.2 → Near x s p.1 (runs p.2) := by
    intro s1 one h p h1 h2 h3
    subst h2
    cases h with
    | user k => exact same _ h1
    | timer =>
      simp only [call] at h3 ⊢
      have := hl { s1 with mpc := .handler one .timer } .ready _ h1 rfl (fun hh => h3 (by simp [hh]))
      simpa [runs] using this
  have hs : ∀ (s1 : State) (y : Nat) (p : State × List Obs), s1.queue = s.queue → schedule s1 y = p → Near x s p.1 (runs p.2) := by
    intro s1 y p h1 h2
    subst h2
    have := near_schedule (s := s1) (x := x) (y := y) (by rw [h1]; exact hx)
    exact ⟨this.mem, by have h3 := this.idx; rw [h1] at h3; simpa [runs, schedule] using h3⟩
  cases e
  case turn =>
    rw [turn_eq] at he
    split at he
    · have n1 := near_scheduleAll (x := x) (l := s.remoteq) (s := { s with remoteq := [] }) hx
      have n2 := near_scheduleAll (x := x) (l := ((scheduleAll { s with remoteq := [] } s.remoteq).1.sleepq.takeWhile (·.1 ≤ (scheduleAll { s with remoteq := [] } s.remoteq).1.now)).map (·.2))
        (s := (scheduleAll { s with remoteq := [] } s.remoteq).1) n1.1.mem
      have n3 : Near x s (woken s).1 0 := by
        have := n1.1.trans n2.1
        exact ⟨this.mem, this.idx⟩
      have n4 : runs (woken s).2 = 0 := by simp only [woken, runs_append, n1.2, n2.2]
      split at he
      · rename_i hq; have := n3.mem; simp [hq] at this
      · simp only [Option.some.injEq, Prod.mk.injEq] at he; obtain ⟨rfl, rfl⟩ := he
        have := n3.trans (near_leave (r := .ready) n3.mem (fun hh => ho (by simp [hh])))
        rw [runs_append, n4]; exact this
    · cases he
  case mainStep =>
    simp only [step] at he
    split at he
    · simp only [mainStep] at he
      (repeat' split at he) <;> (try simp only [Option.some.injEq, reduceCtorEq] at he) <;>
      first
        | (have := hl _ _ _ (by rfl) he ho; exact this)
        | (have := hc _ _ _ _ (by rfl) he ho; exact this)
        | (simp only [Prod.mk.injEq] at he; obtain ⟨rfl, rfl⟩ := he; exact same _ rfl)
    · cases he
  case dispatch y =>
    simp only [step] at he
    split at he; · cases he
    split at he
    · simp only [Option.some.injEq, Prod.mk.injEq] at he; obtain ⟨rfl, rfl⟩ := he
      have := hs { s with cur := y, st := upd s.st y .running } s.cur _ rfl rfl
      simpa [runs] using this
    · cases he
  all_goals
    simp only [step] at he
    (repeat' split at he) <;> (try simp only [Option.some.injEq, reduceCtorEq] at he) <;>
      first
        | (have := hl _ _ _ (by rfl) he ho; exact this)
        | (have := hs _ _ _ (by rfl) he; exact this)
        | (simp only [Prod.mk.injEq] at he; obtain ⟨rfl, rfl⟩ := he; exact same _ rfl)

theorem near_reach {x : Nat} {s0 s1 : State} {tr : List Obs} (hx : x ∈ s0.queue) (h : Reach step s0 s1 tr) (ho : .ran x ∉ tr) : Near x s0 s1 (runs tr) := by
  induction h with
  | refl => exact ⟨hx, by simp [runs]⟩
  | tail e h1 hs ih =>
    have n1 := ih (fun hh => ho (by simp [hh]))
    rw [runs_append]
    exact n1.trans (near_step n1.mem hs (fun hh => ho (by simp [hh])))

/-! ## Deadlines -/

/-- No other thread wakes a fiber, and the main fiber does not give way to another fiber before it calls `run`, or in a handler of the user. -/
def calm (s : State) : Event → Bool
  | .remote _ | .rWait | .rExp => false
  | .yield | .block | .sleep _ | .dispatch _ => s.cur ≠ main
  | _ => true

def calmStep (s : State) (e : Event) : Option (State × List Obs) := if calm s e then step s e else none

/-- A timer is set for the first deadline, or has expired with its handler still to be called. -/
def Armed (s : State) : Prop := ∀ t y q, s.sleepq = (t, y) :: q → (0 < s.waits ∧ s.expiry = t) ∨ (.timer ∈ s.handlers ∧ t ≤ s.now)

def Due (s : State) : Prop := ∃ t y q, s.sleepq = (t, y) :: q ∧ t ≤ s.now

/-- The main fiber is the next to run after the dispatcher. -/
def Back (s : State) : Prop := s.cur = disp ∧ ∃ q, s.queue = main :: q ∧ (0 < others q ∨ Armed s ∨ Due s)

def Set (s : State) : Prop :=
  s.remoteq = [] ∧
  match s.mpc with
  | .setup => s.cur = main ∧ s.sleepq = []
  | .loop => 0 < s.counter ∨ Armed s
  | .runOne => Armed s
  | .poll => True
  | .waiting => s.st main = .blocked ∨ (s.cur = main ∧ (0 < s.counter ∨ Armed s)) ∨ Back s
  | .handler true .timer => (s.cur = main ∧ (0 < s.counter ∨ Armed s)) ∨ Back s
  | .handler true (.user _) => s.cur = main ∧ (0 < s.counter ∨ Armed s)
  | .handler false .timer => True
  | .handler false (.user _) => s.cur = main
  | .done => s.cur = main

theorem Armed.mono {s s' : State} (h : Armed s) (h1 : s'.sleepq = s.sleepq) (h2 : s'.waits = s.waits) (h3 : s'.expiry = s.expiry) (h4 : ∀ a ∈ s.handlers, a ∈ s'.handlers) (h5 : s.now ≤ s'.now) : Armed s' := by
  intro t y q e
  rw [h1] at e
  rcases h t y q e with h | ⟨h, h'⟩
  · exact .inl (by rw [h2, h3]; exact h)
  · exact .inr ⟨h4 _ h, by omega⟩

theorem Armed.fire {s : State} (h : Armed s) (hw : 0 < s.waits) (he : s.expiry ≤ s.now) : Armed { s with handlers := s.handlers ++ List.replicate s.waits .timer, waits := 0 } := by
  intro t y q e
  rcases h t y q e with h | ⟨h, h'⟩
  · exact .inr ⟨timer_mem hw, by have := h.2; show t ≤ s.now; omega⟩
  · exact .inr ⟨by simp [h], h'⟩

/-- Steps that only bring handlers, or time. -/
theorem Set.mono {s s' : State} (h : Set s) (ha : Armed s → Armed s') (hd : Due s → Due s') (h1 : s'.remoteq = s.remoteq) (h2 : s'.mpc = s.mpc) (h3 : s'.cur = s.cur) (h4 : s'.st = s.st) (h5 : s'.sleepq = s.sleepq)
    (h6 : s'.queue = s.queue) (h7 : s'.counter = s.counter) : Set s' := by
  have hb : Back s → Back s' := by
    rintro ⟨a, q, b, c⟩
    exact ⟨by rw [h3]; exact a, q, by rw [h6]; exact b, c.imp id (Or.imp ha hd)⟩
  refine ⟨by rw [h1]; exact h.1, ?_⟩
  have h := h.2
  rw [h2]
  split <;> simp only [*] at h ⊢ <;> first | trivial | grind

theorem not_in_sleepq {s : State} {y : Nat} (hb : Base [] s) (h : ∀ t, s.st y ≠ .asleep t) : s.sleepq.filter (·.2 ≠ y) = s.sleepq := by
  rw [List.filter_eq_self]
  intro a ha
  have := (hb.sst a.2 a.1).1 ha
  simp only [ne_eq, decide_not, Bool.not_eq_true', decide_eq_false_iff_not]
  rintro rfl
  exact h _ this

theorem main_blocked_leave {s : State} {r : St} (hb : Base [] s) (h : s.st main = .blocked) (hc : s.cur ≠ main) (hq : s.queue ≠ []) : (leave s r).1.st main = .blocked := by
  cases hq' : s.queue with
  | nil => exact absurd hq' hq
  | cons x q =>
    have hx := (hb.st x).2 (by simp [hq'])
    have hxm : main ≠ x := by intro e; subst e; simp [h] at hx
    have hcm : main ≠ s.cur := Ne.symm hc
    simp only [leave, hq']
    split <;> simp [schedule, awakened, hxm, hcm, h]

theorem scheduleAll_queue : ∀ {l : List Nat} {s : State}, (scheduleAll s l).1.queue = s.queue ++ l := by
  intro l
  induction l with
  | nil => intro s; simp [scheduleAll]
  | cons y l ih => intro s; have := ih (s := (schedule s y).1); simpa [scheduleAll, schedule, awakened] using this

/-- The fibers the dispatcher makes ready when no other thread has woken one. -/
def due (s : State) : List Nat := (s.sleepq.takeWhile (·.1 ≤ s.now)).map (·.2)

theorem woken_calm {s : State} (h : s.remoteq = []) : (woken s).1 = (scheduleAll s (due s)).1 := by
  have : { s with remoteq := [] } = s := by cases s; simp_all
  simp only [woken, h, scheduleAll, this, due]

theorem due_asleep {s : State} {y : Nat} (hb : Base [] s) (hy : y ∈ due s) : ∃ t, s.st y = .asleep t := by
  obtain ⟨a, ha, rfl⟩ := List.mem_map.1 hy
  exact ⟨a.1, (hb.sst a.2 a.1).1 ((List.takeWhile_sublist _).subset ha)⟩

theorem others_pos {q : List Nat} {y : Nat} (h : y ∈ q) (hy : y ≠ disp) : 0 < others q := by
  unfold others
  exact List.length_pos_of_mem (List.mem_filter.2 ⟨h, by simpa using hy⟩)

theorem others_app {a b : List Nat} : others (a ++ b) = others a + others b := by simp [others, List.filter_append]

theorem others_zero {q : List Nat} (hn : q.Nodup) (hd : disp ∈ q) (h : others q = 0) : q = [disp] := by
  have hall : ∀ y ∈ q, y = disp := fun y hy => by
    refine Classical.byContradiction fun hne => ?_
    have := others_pos hy hne; omega
  match q, hn, hd, hall with
  | [a], _, _, hall => rw [hall a (by simp)]
  | a :: b :: q, hn, _, hall =>
    have h1 := hall a (by simp); have h2 := hall b (by simp)
    subst h1; subst h2; simp at hn

theorem step_set {s s' : State} {e : Event} {o : List Obs} (hb : Base [] s) (hm : Main s) (h : Set s) (he : calmStep s e = some (s', o)) : Set s' := by
  have hst := he
  simp only [calmStep] at he
  split at he
  case isFalse => cases he
  rename_i hcalm
  obtain ⟨hb', hm'⟩ := step_inv hb hm he
  obtain ⟨hr, hs⟩ := h
  by_cases hf : e.fib = true
  · obtain ⟨k, hd, hu, _⟩ := fib_step hb hm he hf
    refine ⟨by rw [k.remoteq]; exact hr, ?_⟩
    by_cases hc : s.cur = main
    · have hum := hu hc
      have key : ∃ y, (s.st y = .unborn ∨ s.st y = .blocked ∨ ∃ t, s.st y = .asleep t) ∧ schedule s y = (s', o) := by
        cases e <;> simp only [Event.fib, reduceCtorEq] at hf <;> simp only [calm, hc, ne_eq, not_true_eq_false, decide_false, reduceCtorEq] at hcalm <;> simp only [step] at he <;> (split at he; · cases he)
        case finish => simp [hc] at he
        case post y _ =>
          split at he
          · rename_i h1; simp only [Option.some.injEq] at he; exact ⟨y, .inl h1, he⟩
          · cases he
        case wake y _ =>
          refine ⟨y, ?_⟩
          split at he
          · cases he
          · split at he <;> simp_all
      obtain ⟨y, hy, he'⟩ := key
      have hyd : y ≠ disp := by rintro rfl; have := hb.dst; grind
      have e1 : s'.counter = s.counter + 1 := by have := congrArg (·.1.counter) he'; simp only [schedule, awakened, hyd, if_false] at this; exact this.symm
      have e2 : s'.cur = main := by have := congrArg (·.1.cur) he'; simp only [schedule, awakened] at this; rw [← this]; exact hc
      have e3 : s'.sleepq = s.sleepq.filter (·.2 ≠ y) := by have := congrArg (·.1.sleepq) he'; simp only [schedule, awakened] at this; exact this.symm
      rw [k.mpc]
      cases hmp : s.mpc <;> simp only [hmp, MPc.user, reduceCtorEq] at hum hs ⊢
      case setup => exact ⟨e2, by rw [e3, hs.2]; rfl⟩
      case done => exact e2
      case handler one h =>
        cases h with
        | timer => simp at hum
        | user k =>
          cases one <;> simp only at hs ⊢
          · exact e2
          · exact ⟨e2, .inl (by omega)⟩
    · rw [k.mpc]
      cases hmp : s.mpc <;> simp only [hmp] at hs ⊢
      case setup => exact absurd hs.1 hc
      case loop => exact absurd (hm.lp (.inl hmp)) hc
      case runOne => exact absurd (hm.one hmp).1 hc
      case done => exact absurd hs hc
      case handler one h =>
        cases h with
        | timer =>
          cases one <;> simp only at hs ⊢
          rcases hs with hs | hs
          · exact absurd hs.1 hc
          · exact absurd hs.1 hd
        | user k =>
          cases one <;> simp only at hs ⊢
          · exact absurd hs hc
          · exact absurd hs.1 hc
      case waiting =>
        left
        have hbl : s.st main = .blocked := by
          rcases hs with hs | hs | hs
          · exact hs
          · exact absurd hs.1 hc
          · exact absurd hs.1 hd
        have hq := (queue_ne hb hd).2
        cases e <;> simp only [Event.fib, reduceCtorEq] at hf <;> simp only [step] at he <;> (split at he; · cases he)
        case yield => simp only [Option.some.injEq] at he; have := main_blocked_leave (r := .ready) hb hbl hc hq; rwa [he] at this
        case block => simp only [Option.some.injEq] at he; have := main_blocked_leave (r := .blocked) hb hbl hc hq; rwa [he] at this
        case sleep t _ =>
          simp only [Option.some.injEq] at he
          cases hq' : s.queue with
          | nil => exact absurd hq' hq
          | cons x q =>
            have hx := (hb.st x).2 (by simp [hq'])
            have hxm : main ≠ x := by intro e; subst e; simp [hbl] at hx
            have hcm : main ≠ s.cur := Ne.symm hc
            simp only [leave, hq', reduceCtorEq, if_false, Prod.mk.injEq] at he
            obtain ⟨rfl, rfl⟩ := he
            simp [hxm, hcm, hbl]
        case finish =>
          simp only [Option.some.injEq] at he; have := main_blocked_leave (r := .ended) hb hbl hc hq; rwa [he] at this
        case post y _ =>
          split at he
          · rename_i h1
            have hym : main ≠ y := by intro e; subst e; simp [hbl] at h1
            simp only [Option.some.injEq] at he
            have := schedule_st (s := s) hym
            rw [he] at this; rw [this]; exact hbl
          · cases he
        case dispatch y _ =>
          split at he
          · rename_i h1
            have hym : main ≠ y := by intro e; subst e; simp [hbl] at h1
            simp only [Option.some.injEq, Prod.mk.injEq] at he; obtain ⟨rfl, rfl⟩ := he
            simp [schedule, awakened, Ne.symm hc, hym, hbl]
          · cases he
        case wake y _ =>
          split at he; · cases he
          rename_i h1
          have hym : main ≠ y := by intro e; subst e; simp [hmp] at h1
          have key : schedule s y = (s', o) := by split at he <;> simp_all
          have := schedule_st (s := s) hym
          rw [key] at this; rw [this]; exact hbl
  cases e <;> simp only [Event.fib, not_true_eq_false] at hf <;> simp only [calm, Bool.false_eq_true] at hcalm
  case tick n =>
    simp only [step, Option.some.injEq, Prod.mk.injEq] at he; obtain ⟨rfl, rfl⟩ := he
    refine Set.mono (s := s) ⟨hr, hs⟩ (fun h => h.mono rfl rfl rfl (fun _ h => h) (by simp)) ?_ rfl rfl rfl rfl rfl rfl rfl
    rintro ⟨t, y, q, h1, h2⟩; exact ⟨t, y, q, h1, by simp; omega⟩
  case arrive k =>
    simp only [step, Option.some.injEq, Prod.mk.injEq] at he; obtain ⟨rfl, rfl⟩ := he
    exact Set.mono (s := s) ⟨hr, hs⟩ (fun h => h.mono rfl rfl rfl (fun _ h => by simp [h]) (Nat.le_refl _)) id rfl rfl rfl rfl rfl rfl rfl
  case stop =>
    simp only [step, Option.some.injEq, Prod.mk.injEq] at he; obtain ⟨rfl, rfl⟩ := he
    exact Set.mono (s := s) ⟨hr, hs⟩ (fun h => h.mono rfl rfl rfl (fun _ h => h) (Nat.le_refl _)) id rfl rfl rfl rfl rfl rfl rfl
  case fire =>
    simp only [step] at he; split at he
    · rename_i hw
      simp only [Option.some.injEq, Prod.mk.injEq] at he; obtain ⟨rfl, rfl⟩ := he
      exact Set.mono (s := s) ⟨hr, hs⟩ (fun h => h.fire hw.1 hw.2) id rfl rfl rfl rfl rfl rfl rfl
    · cases he
  case run =>
    simp only [step] at he; split at he
    · rename_i hc
      simp only [Option.some.injEq, Prod.mk.injEq] at he; obtain ⟨rfl, rfl⟩ := he
      refine ⟨hr, ?_⟩
      simp only [hc.2] at hs ⊢
      exact .inr (fun t y q e => by simp [hs.2] at e)
    · cases he
  case mainStep =>
    simp only [step] at he; split at he
    · rename_i hc
      have hrun := (hb.run main).2 hc.symm
      have hd : s.cur ≠ disp := by rw [hc]; simp
      have hdq := (queue_ne hb hd)
      have hms := not_in_sleepq (y := main) hb (by simp [hrun])
      have hwait : ∀ r : State × List Obs, leave { s with mpc := .waiting } .blocked = r → Set r.1 := by
        intro r hr'; subst hr'
        have k := keeps_leave (s := { s with mpc := .waiting }) (r := .blocked)
        refine ⟨by rw [k.remoteq]; exact hr, ?_⟩
        rw [k.mpc]
        refine .inl ?_
        cases hq' : s.queue with
        | nil => exact absurd hq' hdq.2
        | cons x q =>
          have hx := (hb.st x).2 (by simp [hq'])
          have hxm : main ≠ x := by intro e; subst e; simp [hrun] at hx
          simp [leave, hq', hxm, hc]
      have hcf : ∀ (h : H) (hs : List H) (r : State × List Obs), call { s with handlers := hs } false h = r → Set r.1 := by
        intro h hs r hr'; subst hr'
        cases h with
        | user k => exact ⟨hr, hc⟩
        | timer =>
          have k := keeps_leave (s := { s with handlers := hs, mpc := .handler false .timer }) (r := .ready)
          refine ⟨by simp only [call]; rw [k.remoteq]; exact hr, ?_⟩
          simp only [call]; rw [k.mpc]; trivial
      simp only [mainStep] at he
      cases hmp : s.mpc <;> simp only [hmp] at hs he
      case setup => cases he
      case done => cases he
      case loop =>
        split at he
        · simp only [Option.some.injEq, Prod.mk.injEq] at he; obtain ⟨rfl, rfl⟩ := he; exact ⟨hr, hc⟩
        · split at he
          · simp only [Option.some.injEq, Prod.mk.injEq] at he; obtain ⟨rfl, rfl⟩ := he; exact ⟨hr, trivial⟩
          · rename_i hh
            simp only [Option.some.injEq, Prod.mk.injEq] at he; obtain ⟨rfl, rfl⟩ := he
            simp [hasReady] at hh
            refine ⟨hr, ?_⟩
            rcases hs with hs | hs
            · omega
            · exact hs
      case poll =>
        split at he
        · simp only [Option.some.injEq] at he; exact hwait _ he
        · split at he
          · simp only [Option.some.injEq] at he; exact hwait _ he
          · simp only [Option.some.injEq] at he; exact hcf _ _ _ he
      case waiting =>
        simp only [Option.some.injEq, Prod.mk.injEq] at he; obtain ⟨rfl, rfl⟩ := he
        refine ⟨hr, ?_⟩
        rcases hs with hs | hs | hs
        · simp [hrun] at hs
        · exact hs.2
        · exact absurd hs.1 hd
      case runOne =>
        split at he
        · simp only [Option.some.injEq, Prod.mk.injEq] at he; obtain ⟨rfl, rfl⟩ := he; exact ⟨hr, hc⟩
        · split at he
          · cases he
          · rename_i h hs' hh
            simp only [Option.some.injEq] at he
            cases h with
            | user k =>
              simp only [call, Prod.mk.injEq] at he; obtain ⟨rfl, rfl⟩ := he
              refine ⟨hr, hc, .inr ?_⟩
              intro t y q e
              rcases hs t y q e with h | ⟨h, h'⟩
              · exact .inl h
              · exact .inr ⟨by rw [hh] at h; simpa using h, h'⟩
            | timer =>
              have hq : s.queue = [disp] := others_zero hb.nodup hdq.1 (by rw [← hb.counter]; exact (hm.one hmp).2)
              simp only [call, leave, hq, if_true, schedule, awakened, Prod.mk.injEq] at he
              obtain ⟨rfl, rfl⟩ := he
              refine ⟨hr, .inr ⟨rfl, [], by simp [hc], .inr ?_⟩⟩
              cases hsl : s.sleepq with
              | nil => left; intro t y q e; simp [hsl] at e
              | cons a q0 =>
                rcases hs a.1 a.2 q0 hsl with h | ⟨h, h'⟩
                · left
                  intro t y q e
                  simp only [hc] at e
                  rw [← hsl, hms, hsl] at e
                  cases e
                  exact .inl h
                · right
                  exact ⟨a.1, a.2, q0, by simp only [hc]; rw [← hsl, hms, hsl], h'⟩
      case handler one h =>
        simp only [Option.some.injEq, Prod.mk.injEq] at he; obtain ⟨rfl, rfl⟩ := he
        refine ⟨hr, ?_⟩
        cases one
        · trivial
        · cases h with
          | timer =>
            rcases hs with hs | hs
            · exact hs.2
            · exact absurd hs.1 hd
          | user k => exact hs.2
    · cases he
  case turn =>
    rw [turn_eq] at he
    split at he
    · rename_i hd
      have hcm : s.cur ≠ main := by rw [hd]; simp
      have hbw := woken_base hb
      have hwc := woken_calm hr
      have f := scheduleAll_mpc (l := due s) (s := s)
      have fq := scheduleAll_queue (l := due s) (s := s)
      have hwr := woken_remoteq (s := s)
      rw [← hwc] at f fq
      have hempty : due s = [] → (woken s).1 = s := fun e => by rw [hwc, e]; rfl
      have hblk : s.st main = .blocked → (woken s).1.st main = .blocked := by
        intro hbl
        rw [hwc, scheduleAll_st, hbl]
        intro hmem
        obtain ⟨t, ht⟩ := due_asleep hb hmem
        simp [hbl] at ht
      have hpos : due s ≠ [] → 0 < others (due s) := by
        intro hne
        obtain ⟨y, hy⟩ := List.exists_mem_of_ne_nil _ hne
        obtain ⟨t, ht⟩ := due_asleep hb hy
        exact others_pos hy (by rintro rfl; have := hb.dst; simp [ht] at this)
      -- the main fiber goes on
      have hback : ∀ p : State × List Obs, Back s → leave (woken s).1 .ready = p → p.1.cur = main ∧ (0 < p.1.counter ∨ Armed p.1) := by
        intro p hbk hp
        obtain ⟨_, q, hq, hor⟩ := hbk
        have hq1 : (woken s).1.queue = main :: (q ++ due s) := by rw [fq, hq]; simp
        have hbp := leave_ready hbw (by rw [hq1]; simp)
        rw [hp] at hbp
        have hcd : (woken s).1.cur = disp := by rw [f.2.1]; exact hd
        subst hp
        simp only [leave, hq1, if_true, schedule, awakened, hcd] at hbp ⊢
        refine ⟨trivial, ?_⟩
        have hcnt := hbp.counter
        dsimp only at hcnt ⊢
        rw [others_app, others_app] at hcnt
        by_cases hdu : due s = []
        · rcases hor with h | h | ⟨t, y, q1, h1, h2⟩
          · left; omega
          · right
            have hfl := not_in_sleepq (y := disp) hb (by intro t ht; have := hb.dst; simp [ht] at this)
            have hw := hempty hdu
            refine h.mono ?_ ?_ ?_ ?_ ?_ <;> dsimp only <;> rw [hw]
            · exact hfl
            · exact fun _ h => h
            · exact Nat.le_refl _
          · simp only [due, h1, List.takeWhile_cons, h2, decide_true, if_true, List.map_cons, reduceCtorEq] at hdu
        · left; have := hpos hdu; omega
      generalize hw : (woken s).1 = w at *
      split at he
      · rename_i hq
        simp only [Option.some.injEq, Prod.mk.injEq] at he; obtain ⟨rfl, rfl⟩ := he
        have hsq : s.queue = [] := by rw [fq] at hq; exact (List.append_eq_nil_iff.1 hq).1
        cases hmp : s.mpc <;> simp only [hmp] at hs
        case setup => exact absurd hs.1 hcm
        case loop => exact absurd (hm.lp (.inl hmp)) hcm
        case poll => exact absurd (hm.lp (.inr hmp)) hcm
        case runOne => exact absurd (hm.one hmp).1 hcm
        case done => exact absurd hs hcm
        case handler one h =>
          exfalso
          cases h with
          | user k =>
            cases one
            · exact hcm hs
            · exact hcm hs.1
          | timer =>
            rcases hm.th one hmp with h | h
            · have := (hb.st main).1 h; simp [hsq] at this
            · exact hcm ((hb.run main).1 h).symm
        case waiting =>
          have hbl : s.st main = .blocked := by
            rcases hs with hs | hs | ⟨_, q, hs, _⟩
            · exact hs
            · exact absurd hs.1 hcm
            · simp [hsq] at hs
          have hwb := hblk hbl
          have hwm : w.mpc = .waiting := by rw [f.1]; exact hmp
          have hfl := not_in_sleepq (y := main) hbw (by simp [hwb])
          simp only [suspendUntil]
          cases hsl : w.sleepq with
          | nil =>
            simp only [hwm, hwb, and_self, if_true, schedule, awakened]
            refine ⟨hwr, ?_⟩
            simp only
            refine .inr (.inr ⟨by rw [f.2.1]; exact hd, [], by simp [hq], .inr (.inl ?_)⟩)
            intro t y q e
            simp [hsl] at e
          | cons a q0 =>
            simp only [asyncWait, expiresAt, hwm, hwb, and_self, if_true, schedule, awakened]
            refine ⟨hwr, ?_⟩
            simp only
            refine .inr (.inr ⟨by rw [f.2.1]; exact hd, [], by simp [hq], .inr (.inl ?_)⟩)
            intro t y q e
            dsimp only at e
            rw [hfl, hsl] at e
            cases e
            exact .inl ⟨by simp, rfl⟩
      · rename_i x q hq
        simp only [Option.some.injEq, Prod.mk.injEq] at he; obtain ⟨rfl, rfl⟩ := he
        have k := keeps_leave (s := w) (r := .ready)
        refine ⟨by rw [k.remoteq]; exact hwr, ?_⟩
        rw [k.mpc, f.1]
        cases hmp : s.mpc <;> simp only [hmp] at hs ⊢
        case setup => exact absurd hs.1 hcm
        case loop => exact absurd (hm.lp (.inl hmp)) hcm
        case runOne => exact absurd (hm.one hmp).1 hcm
        case done => exact absurd hs hcm
        case handler one h =>
          cases h with
          | user k =>
            exfalso
            cases one
            · exact hcm hs
            · exact hcm hs.1
          | timer =>
            cases one
            · trivial
            · rcases hs with hs | hs
              · exact absurd hs.1 hcm
              · exact .inl (hback _ hs rfl)
        case waiting =>
          rcases hs with hs | hs | hs
          · exact .inl (main_blocked_leave hbw (hblk hs) (by rw [f.2.1]; exact hcm) (by rw [hq]; simp))
          · exact absurd hs.1 hcm
          · exact .inr (.inl (hback _ hs rfl))
    · cases he

theorem calm_reach {s : State} {tr : List Obs} (h : Reach calmStep init s tr) : Reach step init s tr ∧ Set s := by
  induction h with
  | refl => exact ⟨.refl, ⟨rfl, rfl, rfl⟩⟩
  | tail e h1 hs ih =>
    obtain ⟨hb, hm⟩ := reach_inv ih.1
    have h2 := step_set hb hm ih.2 hs
    simp only [calmStep] at hs
    split at hs
    · exact ⟨ih.1.tail e hs, h2⟩
    · cases hs

/-! ## Who comes first -/

/-- What a step does to the queue: fibers are put at its end, at most one is taken from its head, and that one runs. -/
def Shift (q q' : List Nat) (o : List Obs) : Prop :=
  (∃ l, q' = q ++ l ∧ ∀ b, .ran b ∉ o) ∨ (∃ l1 a r l2, q ++ l1 = a :: r ∧ q' = r ++ l2 ∧ ∀ b, .ran b ∈ o ↔ b = a)

theorem shift_leave {s : State} {r : St} (hne : s.queue ≠ []) : ∃ a q l, s.queue = a :: q ∧ (leave s r).1.queue = q ++ l ∧ ∀ b, .ran b ∈ (leave s r).2 ↔ b = a := by
  cases hq : s.queue with
  | nil => exact absurd hq hne
  | cons a q =>
    by_cases hr : r = .ready
    · exact ⟨a, q, [s.cur], rfl, by simp [leave, hq, hr, schedule, awakened], by simp [leave, hq, hr, schedule]⟩
    · exact ⟨a, q, [], rfl, by simp [leave, hq, hr], by simp [leave, hq, hr]⟩

theorem scheduleAll_noran : ∀ {l : List Nat} {s : State} {b : Nat}, .ran b ∉ (scheduleAll s l).2 := by
  intro l
  induction l with
  | nil => intro s b; simp [scheduleAll]
  | cons y l ih => intro s b; simp [scheduleAll, schedule, ih]

theorem step_shift {s s' : State} {e : Event} {o : List Obs} (hb : Base [] s) (he : step s e = some (s', o)) : Shift s.queue s'.queue o := by
  have same : ∀ s2 : State, s2.queue = s.queue → Shift s.queue s2.queue [] := fun s2 h => .inl ⟨[], by simp [h]⟩
  have hl : ∀ (s1 : State) (r : St) (p : State × List Obs), s.cur ≠ disp → s1.queue = s.queue → leave s1 r = p → Shift s.queue p.1.queue p.2 := by
    intro s1 r p hd h1 h2
    subst h2
    obtain ⟨a, q, l, k1, k2, k3⟩ := shift_leave (s := s1) (r := r) (by rw [h1]; exact (queue_ne hb hd).2)
    exact .inr ⟨[], a, q, l, by rw [← h1, k1]; simp, k2, k3⟩
  have hc : ∀ (s1 : State) (one : Bool) (h : H) (p : State × List Obs), s.cur ≠ disp → s1.queue = s.queue → call s1 one h = p → Shift s.queue p.1.queue p.2 := by
    intro s1 one h p hd h1 h2
    subst h2
    cases h with
    | user k => exact .inl ⟨[], by simp [call, h1]⟩
    | timer =>
      simp only [call]
      rcases hl { s1 with mpc := .handler one .timer } .ready _ hd h1 rfl with ⟨l, k1, k2⟩ | ⟨l1, a, r, l2, k1, k2, k3⟩
      · exact .inl ⟨l, k1, by simpa using k2⟩
      · exact .inr ⟨l1, a, r, l2, k1, k2, by simpa using k3⟩
  have hs : ∀ (s1 : State) (y : Nat) (p : State × List Obs), s1.queue = s.queue → schedule s1 y = p → Shift s.queue p.1.queue p.2 := by
    intro s1 y p h1 h2
    subst h2
    exact .inl ⟨[y], by simp [schedule, awakened, h1], by simp [schedule]⟩
  cases e
  case turn =>
    rw [turn_eq] at he
    split at he
    · obtain ⟨l, n3⟩ : ∃ l, (woken s).1.queue = s.queue ++ l := by
        simp only [woken]
        rw [scheduleAll_queue, scheduleAll_queue]
        exact ⟨_, List.append_assoc _ _ _⟩
      have n4 : ∀ b, .ran b ∉ (woken s).2 := by
        intro b; simp only [woken, List.mem_append, not_or]; exact ⟨scheduleAll_noran, scheduleAll_noran⟩
      split at he
      · simp only [Option.some.injEq, Prod.mk.injEq] at he; obtain ⟨rfl, rfl⟩ := he
        refine .inl ?_
        have key : ∃ l2, (suspendUntil (woken s).1).1.queue = (woken s).1.queue ++ l2 ∧ ∀ b, .ran b ∉ (suspendUntil (woken s).1).2 := by
          simp only [suspendUntil]
          split <;> split <;> first | (refine ⟨[], ?_, ?_⟩ <;> simp [asyncWait, expiresAt]; done) | (refine ⟨[main], ?_, ?_⟩ <;> simp [schedule, awakened, asyncWait, expiresAt]; done)
        obtain ⟨l2, k1, k2⟩ := key
        exact ⟨l ++ l2, by rw [k1, n3, List.append_assoc], fun b hb' => by
          rcases List.mem_append.1 hb' with h | h
          · exact n4 b h
          · exact k2 b h⟩
      · rename_i hq
        simp only [Option.some.injEq, Prod.mk.injEq] at he; obtain ⟨rfl, rfl⟩ := he
        obtain ⟨a, q, l2, k1, k2, k3⟩ := shift_leave (s := (woken s).1) (r := .ready) (by rw [hq]; simp)
        exact .inr ⟨l, a, q, l2, by rw [← n3, k1], k2, fun b => by simp [n4 b, k3 b]⟩
    · cases he
  case mainStep =>
    simp only [step] at he
    split at he
    · rename_i hcm
      have hd : s.cur ≠ disp := by rw [hcm]; simp
      simp only [mainStep] at he
      (repeat' split at he) <;> (try simp only [Option.some.injEq, reduceCtorEq] at he) <;>
      first
        | (have := hl _ _ _ hd (by rfl) he; exact this)
        | (have := hc _ _ _ _ hd (by rfl) he; exact this)
        | (simp only [Prod.mk.injEq] at he; obtain ⟨rfl, rfl⟩ := he; exact same _ rfl)
    · cases he
  case dispatch y =>
    simp only [step] at he
    split at he; · cases he
    split at he
    · simp only [Option.some.injEq, Prod.mk.injEq] at he; obtain ⟨rfl, rfl⟩ := he
      exact .inl ⟨[s.cur], by simp [schedule, awakened], by simp [schedule]⟩
    · cases he
  all_goals
    simp only [step] at he
    (repeat' split at he) <;> (try simp only [Option.some.injEq, reduceCtorEq] at he) <;>
      first
        | (have := hl _ _ _ (by grind) (by rfl) he; exact this)
        | (have := hs _ _ _ (by rfl) he; exact this)
        | (simp only [Prod.mk.injEq] at he; obtain ⟨rfl, rfl⟩ := he; exact same _ rfl)

/-- Fiber `x` waits in the queue, and `y` does not wait ahead of it. -/
def After (x y : Nat) (q : List Nat) : Prop := ∃ a b, q = a ++ x :: b ∧ y ∉ a

theorem After.append {x y : Nat} {q l : List Nat} (h : After x y q) : After x y (q ++ l) := by
  obtain ⟨a, b, rfl, hy⟩ := h; exact ⟨a, b ++ l, by simp, hy⟩

theorem after_step {x y : Nat} {s s' : State} {e : Event} {o : List Obs} (hxy : y ≠ x) (hb : Base [] s) (h : After x y s.queue) (he : step s e = some (s', o)) :
    .ran x ∈ o ∨ (After x y s'.queue ∧ .ran y ∉ o) := by
  rcases step_shift hb he with ⟨l, h1, h2⟩ | ⟨l1, a, r, l2, h1, h2, h3⟩
  · right; rw [h1]; exact ⟨h.append, h2 y⟩
  · have h' := h.append (l := l1)
    rw [h1] at h'
    obtain ⟨c, d, hq, hy⟩ := h'
    cases c with
    | nil => simp at hq; left; rw [h3]; exact hq.1.symm
    | cons c0 c =>
      simp at hq hy
      right
      refine ⟨by rw [h2, hq.2]; exact After.append ⟨c, d, rfl, hy.2⟩, ?_⟩
      rw [h3, hq.1]; exact hy.1

theorem after_reach {x y : Nat} {s0 s1 : State} {tr0 tr : List Obs} (hxy : y ≠ x) (h0 : Reach step init s0 tr0) (ha : After x y s0.queue) (h : Reach step s0 s1 tr) (ho : .ran x ∉ tr) : After x y s1.queue ∧ .ran y ∉ tr := by
  induction h with
  | refl => exact ⟨ha, by simp⟩
  | tail e h1 hs ih =>
    obtain ⟨i1, i2⟩ := ih (fun hh => ho (by simp [hh]))
    rcases after_step hxy (reach_inv (h0.trans h1)).1 i1 hs with h | ⟨h, h'⟩
    · exact absurd (by simp [h]) ho
    · exact ⟨h, by simp [i2, h']⟩

end Verif.AsioLoop
