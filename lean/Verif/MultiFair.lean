import Verif.Fair
import Verif.Props.MultiLive

/-!
# Threads that share their fibers, on infinite executions

Infinite executions of `Verif/Multi.lean`. A thread that has not ended and whose fibers give way comes to `pick_next` again and again
(`picks`), and takes the first fiber of its queue; so the fibers before a ready one get fewer.
-/

namespace Verif.Multi

open Verif.Sch (Cx Tid set set_apply set_same set_other)

variable {st : Bool} {n : Nat} {s s' : State} {t u v : Tid} {x y : Cx} {e : Event} {o : List Obs} {l : Spec}

/-- The thread that acts. -/
def Event.actor : Event → Tid
  | .thread t | .spawn t _ _ | .wake t _ | .call t _ | .disp t | .go t | .draw t _ => t

/-- Where a thread can go on by itself. -/
def Pc.busy : Pc → Bool
  | .user | .idle | .steal _ _ => false
  | _ => true

/-! ## Single steps -/

theorem step_frame (hs : step s e = some (s', o)) (hu : e.actor ≠ t) : s'.run t = s.run t ∧ s'.pc t = s.pc t := by
  have hu' : ¬ t = e.actor := fun h => hu h.symm
  cases e <;> simp only [Event.actor] at hu' <;> simp only [step, go, nothing] at hs <;> (repeat' split at hs) <;>
    simp only [Option.some.injEq, Prod.mk.injEq, reduceCtorEq] at hs <;> obtain ⟨rfl, rfl⟩ := hs <;> simp [upd_apply', hu']

theorem busy_go (h : Inv s l) (hs : step s e = some (s', o)) (hu : e.actor = t) (hp : (s.pc t).busy = true) : e = .go t := by
  subst hu
  have hne : s.pc e.actor ≠ .user := by intro h; simp [h, Pc.busy] at hp
  cases e with
  | go t => rfl
  | thread t =>
    simp only [step] at hs
    split at hs
    · rename_i hc; exact absurd (h.dead t (h.mb t hc.1).1) hne
    · cases hs
  | draw t id =>
    simp only [step, Event.actor] at hs hp
    split at hs
    · rename_i hq; simp [hq, Pc.busy] at hp
    · cases hs
  | disp t =>
    simp only [step, Event.actor] at hs hp
    split at hs
    · rename_i hq; rcases hq.2 with hq | hq <;> simp [hq, Pc.busy] at hp
    · cases hs
  | spawn t k d => simp only [step, Event.actor] at hs hne; split at hs <;> simp_all
  | wake t x => simp only [step, Event.actor] at hs hne; split at hs <;> simp_all
  | call t r => simp only [step, Event.actor] at hs hne; split at hs <;> simp_all

theorem go_enabled (h : Inv s l) (hp : (s.pc t).busy = true) : step s (.go t) ≠ none := by
  obtain ⟨z, hz⟩ := h.runs (t := t) (by intro h; simp [h, Pc.busy] at hp)
  simp only [step, go, nothing]
  cases hq : s.pc t <;> simp only [hq, Pc.busy, reduceCtorEq] at hp <;> simp only [hz] <;> (repeat' split) <;> simp

/-- A thread stops running fibers only when it ends. -/
theorem run_stays (hs : step s e = some (s', o)) (hr : s.run t ≠ none) (hn : .ended t ∉ o) : s'.run t ≠ none := by
  cases e <;> simp only [step, go, nothing] at hs <;> (repeat' split at hs) <;>
    simp only [Option.some.injEq, Prod.mk.injEq, reduceCtorEq] at hs <;> obtain ⟨rfl, rfl⟩ := hs <;> simp only [upd_apply'] <;> grind

theorem started_run (hs : step s e = some (s', o)) (h : .started t ∈ o) : s'.run t ≠ none := by
  cases e <;> simp only [step, go, nothing] at hs <;> (repeat' split at hs) <;>
    simp only [Option.some.injEq, Prod.mk.injEq, reduceCtorEq] at hs <;> obtain ⟨rfl, rfl⟩ := hs <;> simp_all [upd_apply']

/-- What it means that a fiber is made ready. -/
theorem ready_step (h : Inv s l) (hs : step s e = some (s', o)) (ho : .ready t x ∈ o) :
    s'.run t ≠ none ∧ (s.stealing = true → x ∈ s'.loc t) ∧ (s.stealing = false → pinned x = false → x ∈ s'.shared) := by
  have hd := h.dead t
  cases e <;> simp only [step, go, nothing] at hs <;> (repeat' split at hs) <;>
    simp only [Option.some.injEq, Prod.mk.injEq, reduceCtorEq] at hs <;> obtain ⟨rfl, rfl⟩ := hs <;> simp_all [upd_apply'] <;> grind

theorem take_step (hs : step s e = some (s', o)) (ho : .take u v x ∈ o) : ∃ r, s'.pc u = .got r x := by
  cases e <;> simp only [step, go, nothing] at hs <;> (repeat' split at hs) <;>
    simp only [Option.some.injEq, Prod.mk.injEq, reduceCtorEq] at hs <;> obtain ⟨rfl, rfl⟩ := hs <;> simp_all [upd_apply']

theorem woken_step (hs : step s e = some (s', o)) (ho : .woken t x ∈ o) : s'.pc t = .aw x := by
  cases e <;> simp only [step, go, nothing] at hs <;> (repeat' split at hs) <;>
    simp only [Option.some.injEq, Prod.mk.injEq, reduceCtorEq] at hs <;> obtain ⟨rfl, rfl⟩ := hs <;> simp_all [upd_apply']

theorem spawned_step (hs : step s e = some (s', o)) (ho : .spawned t x ∈ o) : s'.pc t = .aw x ∨ .direct t x ∈ o := by
  cases e <;> simp only [step, go, nothing] at hs <;> (repeat' split at hs) <;>
    simp only [Option.some.injEq, Prod.mk.injEq, reduceCtorEq] at hs <;> obtain ⟨rfl, rfl⟩ := hs <;> simp_all [upd_apply']

/-- A thread looks for a victim only if its own queue is empty, and nobody else fills it. -/
theorem steal_step (hs : step s e = some (s', o)) (h : ∀ t r c, s.pc t = .steal r c → s.stealing = true ∧ s.loc t = []) :
    ∀ t r c, s'.pc t = .steal r c → s'.stealing = true ∧ s'.loc t = [] := by
  intro t r c hp
  have ht := h t
  cases e with
  | _ u =>
    by_cases hu : t = u
    · subst hu
      simp only [step, go, nothing] at hs
      (repeat' split at hs) <;> simp only [Option.some.injEq, Prod.mk.injEq, reduceCtorEq] at hs <;> obtain ⟨rfl, rfl⟩ := hs <;>
        simp only [upd_apply', if_true] at hp ⊢ <;> grind
    · simp only [step, go, nothing] at hs
      (repeat' split at hs) <;> simp only [Option.some.injEq, Prod.mk.injEq, reduceCtorEq] at hs <;> obtain ⟨rfl, rfl⟩ := hs <;>
        simp only [upd_apply', if_neg hu] at hp ⊢ <;> grind

theorem steal_empty {tr : List Obs} (h : Reach step (init st n) s tr) : ∀ t r c, s.pc t = .steal r c → s.stealing = true ∧ s.loc t = [] := by
  induction h with
  | refl => intro t r c h; simp [init] at h
  | tail e _ hs ih => exact steal_step hs ih

/-- The first elements of a queue are taken, others are appended. -/
theorem moves_up {α : Type} [DecidableEq α] {a b l l' : List α} {x : α} (h : l ++ a = b ++ l') (hx : x ∈ l) (hn : x ∉ b) :
    x ∈ l' ∧ l'.idxOf x + b.length = l.idxOf x := by
  induction b generalizing l with
  | nil =>
    simp only [List.nil_append] at h
    subst h
    exact ⟨List.mem_append_left _ hx, by rw [List.idxOf_append, if_pos hx]; simp⟩
  | cons y b ih =>
    cases l with
    | nil => cases hx
    | cons z l =>
      simp only [List.cons_append, List.cons.injEq] at h
      obtain ⟨rfl, h⟩ := h
      simp only [List.mem_cons, not_or] at hn
      have hx' : x ∈ l := (List.mem_cons.1 hx).resolve_left hn.1
      obtain ⟨h1, h2⟩ := ih h hx' hn.2
      refine ⟨h1, ?_⟩
      rw [List.idxOf_cons, beq_false_of_ne (fun h => hn.1 h.symm)]
      simp only [List.length_cons, cond_false]
      omega

theorem mem_takeQ : ∀ {o : List Obs}, x ∈ takeQ v o → ∃ u, .take u v x ∈ o := by
  intro o
  induction o with
  | nil => intro h; cases h
  | cons a o ih => cases a <;> simp only [takeQ] <;> grind

theorem mem_takeW : ∀ {o : List Obs}, x ∈ takeW o → ∃ u v, .take u v x ∈ o := by
  intro o
  induction o with
  | nil => intro h; cases h
  | cons a o ih => cases a <;> simp only [takeW] <;> grind

/-! ## Infinite executions -/

variable {r : Run step (init st n)} {i : Nat}

/-- The code of the fibers of thread `t` gives way: whenever it runs, the running fiber at some time calls `yield`, or waits, or ends. -/
def GivesWay (r : Run step (init st n)) (t : Tid) : Prop :=
  ∀ i x, (r.st i).run t = some x → x ≠ .disp t → (r.st i).pc t = .user → ∃ j, i ≤ j ∧ ∃ w, r.ev j = .call t w

theorem inv_at (r : Run step (init st n)) (i : Nat) : ∃ l, Inv (r.st i) l := ⟨_, (reach_inv (r.reach i)).2⟩

/-- A thread inside the library goes on. -/
theorem goes (hf : r.Fair Event.go) {p : Pc} (hp : (r.st i).pc t = p) (hb : p.busy = true) :
    ∃ j, i ≤ j ∧ (r.st j).pc t = p ∧ (r.st j).run t = (r.st i).run t ∧ go (r.st j) t = some (r.st (j + 1), r.ob j) ∧ r.ev j = .go t := by
  obtain ⟨j, h1, h2, h3⟩ := r.leads hf (f := t) (i := i) (P := fun j => (r.st j).pc t = p ∧ (r.st j).run t = (r.st i).run t) ⟨hp, rfl⟩
    (fun j hj hP hne => by
      obtain ⟨l, hi⟩ := inv_at r j
      by_cases hu : (r.ev j).actor = t
      · exact absurd (busy_go hi (r.next j) hu (by rw [hP.1]; exact hb)) hne
      · have := step_frame (r.next j) hu
        rw [this.1, this.2]; exact hP)
    (fun j hP => by
      obtain ⟨l, hi⟩ := inv_at r j
      exact go_enabled hi (by rw [hP.1]; exact hb))
  have h4 := r.next j
  rw [h3] at h4
  exact ⟨j, h1, h2.1, h2.2, h4, h3⟩

theorem alive (hr : (r.st i).run t ≠ none) (hn : ∀ j, i ≤ j → .ended t ∉ r.ob j) : ∀ j, i ≤ j → (r.st j).run t ≠ none := by
  intro j hj
  obtain ⟨d, rfl⟩ := Nat.le.dest hj
  clear hj
  induction d with
  | zero => exact hr
  | succ d ih => exact run_stays (r.next (i + d)) ih (hn _ (Nat.le_add_right _ _))

/-- The dispatcher at the start of its loop, or idle, or while it makes a blocked fiber ready. -/
def Loops (s : State) (t : Tid) : Prop :=
  s.run t = some (.disp t) ∧ (s.pc t = .user ∨ s.pc t = .idle ∨ ∃ x, s.pc t = .aw x ∨ s.pc t = .push x)

theorem mayCall_disp (t : Tid) (r : Why) : mayCall t (.disp t) r = false := by
  cases r <;> simp [mayCall, pinned]

theorem disp_step (h : Inv s l) (hs : step s e = some (s', o)) (hu : e.actor = t) (hne : e ≠ .disp t) (hP : Loops s t) : Loops s' t := by
  have hm := h.mb t
  obtain ⟨hr, hp⟩ := hP
  simp only [Loops]
  cases e <;> simp only [Event.actor] at hu <;> subst hu <;> simp only [step, go, nothing] at hs <;> (repeat' split at hs) <;>
    simp only [Option.some.injEq, Prod.mk.injEq, reduceCtorEq] at hs <;> obtain ⟨rfl, rfl⟩ := hs <;>
    first
    | (simp_all [upd_apply', mayCall, pinned]; done)
    | (simp_all [mayCall_disp]; done)
    | grind [mayCall_disp, upd_apply']

/-- The dispatcher at the start of its loop, or idle, comes to call `pick_next`. -/
theorem disp_picks (hf : r.Fair Event.go) (hd : r.Strong Event.disp) (ha : ∀ j, i ≤ j → (r.st j).run t ≠ none)
    (hr : (r.st i).run t = some (.disp t)) (hp : (r.st i).pc t = .user ∨ (r.st i).pc t = .idle) :
    ∃ j, i ≤ j ∧ (r.st j).pc t = .pick .disp := by
  obtain ⟨j, h1, h2, h3⟩ := r.leads_strong hd (f := t) (i := i)
    (P := fun j => Loops (r.st j) t) ⟨hr, by grind⟩
    (fun j hj hP hne => by
      by_cases hu : (r.ev j).actor = t
      · obtain ⟨l, hi⟩ := inv_at r j
        exact disp_step hi (r.next j) hu hne hP
      · have := step_frame (r.next j) hu
        simp only [Loops] at hP ⊢; rw [this.1, this.2]; exact hP)
    (fun j hj => by
      by_cases hP : (r.st j).run t = some (.disp t) ∧ ∃ x, (r.st j).pc t = .aw x ∨ (r.st j).pc t = .push x
      · obtain ⟨hr, x, hp⟩ := hP
        have key : ∀ k x, (r.st k).run t = some (.disp t) → (r.st k).pc t = .push x → ∃ m, k ≤ m ∧ step (r.st m) (.disp t) ≠ none := by
          intro k x hr hp
          obtain ⟨m, h1, h2, h3, h4, _⟩ := goes hf hp rfl
          rw [hr] at h3
          refine ⟨m + 1, by omega, ?_⟩
          have : (r.st (m + 1)).run t = some (.disp t) ∧ (r.st (m + 1)).pc t = .user := by
            simp only [go, h2] at h4
            split at h4 <;> simp only [Option.some.injEq, Prod.mk.injEq] at h4 <;> rw [← h4.1] <;> simp [h3]
          simp only [step, this]; simp only [true_or, and_self, if_true]; split <;> simp
        rcases hp with hp | hp
        · obtain ⟨m, h1, h2, h3, h4, _⟩ := goes hf hp rfl
          rw [hr] at h3
          by_cases hx : pinned x = true
          · refine ⟨m + 1, by omega, fun _ => ?_⟩
            have : (r.st (m + 1)).run t = some (.disp t) ∧ (r.st (m + 1)).pc t = .user := by
              simp only [go, h2, hx, if_true] at h4
              simp only [Option.some.injEq, Prod.mk.injEq] at h4; rw [← h4.1]; simp [h3]
            simp only [step, this]; simp only [true_or, and_self, if_true]; split <;> simp
          · have : (r.st (m + 1)).run t = some (.disp t) ∧ (r.st (m + 1)).pc t = .push x := by
              simp only [go, h2, hx] at h4
              simp only [Bool.false_eq_true, if_false, Option.some.injEq, Prod.mk.injEq] at h4; rw [← h4.1]; simp [h3]
            obtain ⟨k, hk, h5⟩ := key _ _ this.1 this.2
            exact ⟨k, by omega, fun _ => h5⟩
        · obtain ⟨k, hk, h5⟩ := key _ _ hr hp
          exact ⟨k, hk, fun _ => h5⟩
      · refine ⟨j, Nat.le_refl _, fun hP' => ?_⟩
        have hq := hP'.2
        have : (r.st j).pc t = .user ∨ (r.st j).pc t = .idle := by
          rcases hq with h | h | h
          · exact .inl h
          · exact .inr h
          · exact absurd ⟨hP'.1, h⟩ hP
        simp only [step, hP'.1, this]; simp only [and_self, if_true]; split <;> simp)
  refine ⟨j + 1, by omega, ?_⟩
  have h4 := r.next j
  have h5 := ha (j + 1) (by omega)
  rw [h3] at h4
  simp only [step] at h4
  (repeat' split at h4) <;> simp only [Option.some.injEq, Prod.mk.injEq, reduceCtorEq] at h4
  · rw [← h4.1] at h5; simp at h5
  · rw [← h4.1]; simp

theorem call_step (hs : step s (.call t w) = some (s', o)) : s'.pc t = .pick w := by
  simp only [step] at hs
  (repeat' split at hs) <;> simp only [Option.some.injEq, Prod.mk.injEq, reduceCtorEq] at hs
  rw [← hs.1]; simp

/-- A thread that has not ended comes to call `pick_next`. -/
theorem to_pick (hf : r.Fair Event.go) (hd : r.Strong Event.disp) (hg : GivesWay r t) (ha : ∀ j, i ≤ j → (r.st j).run t ≠ none)
    (hns : ∀ j, i ≤ j → ∀ w c, (r.st j).pc t ≠ .steal w c) : ∃ j, i ≤ j ∧ ∃ w, (r.st j).pc t = .pick w := by
  have user : ∀ k, i ≤ k → (r.st k).pc t = .user → ∃ j, i ≤ j ∧ ∃ w, (r.st j).pc t = .pick w := by
    intro k hk hp
    cases hr : (r.st k).run t with
    | none => exact absurd hr (ha k hk)
    | some x =>
      by_cases hx : x = .disp t
      · obtain ⟨j, h1, h2⟩ := disp_picks hf hd (fun j hj => ha j (by omega)) (hx ▸ hr) (.inl hp)
        exact ⟨j, by omega, _, h2⟩
      · obtain ⟨j, h1, w, h2⟩ := hg k x hr hx hp
        have := r.next j
        rw [h2] at this
        exact ⟨j + 1, by omega, w, call_step this⟩
  have idle : ∀ k, i ≤ k → (r.st k).pc t = .idle → ∃ j, i ≤ j ∧ ∃ w, (r.st j).pc t = .pick w := by
    intro k hk hp
    obtain ⟨l, hi⟩ := inv_at r k
    obtain ⟨j, h1, h2⟩ := disp_picks hf hd (fun j hj => ha j (by omega)) (hi.idle t hp) (.inr hp)
    exact ⟨j, by omega, _, h2⟩
  have push : ∀ k x, i ≤ k → (r.st k).pc t = .push x → ∃ j, i ≤ j ∧ ∃ w, (r.st j).pc t = .pick w := by
    intro k x hk hp
    obtain ⟨m, h1, h2, h3, h4, _⟩ := goes hf hp rfl
    refine user (m + 1) (by omega) ?_
    simp only [go, h2] at h4
    split at h4 <;> simp only [Option.some.injEq, Prod.mk.injEq] at h4 <;> rw [← h4.1] <;> simp
  have aw : ∀ k x, i ≤ k → (r.st k).pc t = .aw x → ∃ j, i ≤ j ∧ ∃ w, (r.st j).pc t = .pick w := by
    intro k x hk hp
    obtain ⟨m, h1, h2, h3, h4, _⟩ := goes hf hp rfl
    have : (r.st (m + 1)).pc t = .user ∨ (r.st (m + 1)).pc t = .push x := by
      simp only [go, h2] at h4
      split at h4 <;> simp only [Option.some.injEq, Prod.mk.injEq] at h4 <;> rw [← h4.1] <;> simp
    rcases this with h | h
    · exact user (m + 1) (by omega) h
    · exact push (m + 1) x (by omega) h
  have put : ∀ k w x, i ≤ k → (r.st k).pc t = .put w x → ∃ j, i ≤ j ∧ ∃ w, (r.st j).pc t = .pick w := by
    intro k w x hk hp
    obtain ⟨m, h1, h2, h3, h4, _⟩ := goes hf hp rfl
    have : (r.st (m + 1)).pc t = .user ∨ (r.st (m + 1)).pc t = .aw x := by
      simp only [go, h2] at h4
      split at h4 <;> simp only [Option.some.injEq, Prod.mk.injEq] at h4 <;> rw [← h4.1] <;> simp
    rcases this with h | h
    · exact user (m + 1) (by omega) h
    · exact aw (m + 1) x (by omega) h
  have got : ∀ k w x, i ≤ k → (r.st k).pc t = .got w x → ∃ j, i ≤ j ∧ ∃ w, (r.st j).pc t = .pick w := by
    intro k w x hk hp
    obtain ⟨m, h1, h2, h3, h4, _⟩ := goes hf hp rfl
    have : ∃ z, (r.st (m + 1)).pc t = .put w z := by
      simp only [go, h2] at h4
      split at h4 <;> simp only [Option.some.injEq, Prod.mk.injEq, reduceCtorEq] at h4
      rw [← h4.1]; simp
    obtain ⟨z, h⟩ := this
    exact put (m + 1) w z (by omega) h
  cases hp : (r.st i).pc t with
  | user => exact user i (Nat.le_refl _) hp
  | aw x => exact aw i x (Nat.le_refl _) hp
  | push x => exact push i x (Nat.le_refl _) hp
  | pick w => exact ⟨i, Nat.le_refl _, w, hp⟩
  | lpick w =>
    obtain ⟨m, h1, h2, h3, h4, _⟩ := goes hf hp rfl
    have : (r.st (m + 1)).pc t = .user ∨ (r.st (m + 1)).pc t = .idle ∨ ∃ x, (r.st (m + 1)).pc t = .got w x := by
      simp only [go, h2, nothing] at h4
      split at h4
      · split at h4 <;> simp only [Option.some.injEq, Prod.mk.injEq] at h4 <;> rw [← h4.1] <;> simp
      · simp only [Option.some.injEq, Prod.mk.injEq] at h4; rw [← h4.1]; simp
    rcases this with h | h | ⟨x, h⟩
    · exact user (m + 1) (by omega) h
    · exact idle (m + 1) (by omega) h
    · exact got (m + 1) w x (by omega) h
  | steal w c => exact absurd hp (hns i (Nat.le_refl _) w c)
  | got w x => exact got i w x (Nat.le_refl _) hp
  | put w x => exact put i w x (Nat.le_refl _) hp
  | idle => exact idle i (Nat.le_refl _) hp

theorem picks (hf : r.Fair Event.go) (hd : r.Strong Event.disp) (hg : GivesWay r t) (ha : ∀ j, i ≤ j → (r.st j).run t ≠ none)
    (hns : ∀ j, i ≤ j → ∀ w c, (r.st j).pc t ≠ .steal w c) :
    ∃ j, i ≤ j ∧ (∃ w, (r.st j).pc t = .pick w) ∧ go (r.st j) t = some (r.st (j + 1), r.ob j) := by
  obtain ⟨k, h1, w, h2⟩ := to_pick hf hd hg ha hns
  obtain ⟨m, h3, h4, _, h5, _⟩ := goes hf h2 rfl
  exact ⟨m, by omega, ⟨w, h4⟩, h5⟩

/-- What is taken from a queue runs. -/
theorem taken_runs (hf : r.Fair Event.go) (h : .take u v x ∈ r.ob i) : ∃ j, i < j ∧ .run u x ∈ r.ob j := by
  obtain ⟨w, hp⟩ := take_step (r.next i) h
  obtain ⟨m, h1, h2, h3, h4, _⟩ := goes hf hp rfl
  refine ⟨m, by omega, ?_⟩
  simp only [go, h2] at h4
  split at h4 <;> simp only [Option.some.injEq, Prod.mk.injEq, reduceCtorEq] at h4
  rw [← h4.2]; simp

/-- `work_stealing`: a fiber in the queue of a thread that lives on is taken. -/
theorem queued_taken {r : Run step (init true n)} (hf : r.Fair Event.go) (hd : r.Strong Event.disp) (hg : GivesWay r t)
    (ha : ∀ j, i ≤ j → (r.st j).run t ≠ none) (hx : x ∈ (r.st i).loc t) : ∃ j, i ≤ j ∧ ∃ u, .take u t x ∈ r.ob j := by
  refine Classical.byContradiction fun hn => ?_
  have hstep : ∀ j, i ≤ j → x ∈ (r.st j).loc t → x ∈ (r.st (j + 1)).loc t ∧
      ((r.st (j + 1)).loc t).idxOf x + (takeQ t (r.ob j)).length = ((r.st j).loc t).idxOf x := by
    intro j hj hx
    obtain ⟨l, hi⟩ := inv_at r j
    refine moves_up (step_queue hi (reach_mode (r.reach j)) (r.next j)) hx fun hm => ?_
    obtain ⟨u, hu⟩ := mem_takeQ hm
    exact hn ⟨j, hj, u, hu⟩
  have hall : ∀ d, x ∈ (r.st (i + d)).loc t := by
    intro d
    induction d with
    | zero => exact hx
    | succ d ih => exact (hstep _ (Nat.le_add_right _ _) ih).1
  have hall' : ∀ j, i ≤ j → x ∈ (r.st j).loc t := fun j hj => by have := hall (j - i); rwa [Nat.add_sub_cancel' hj] at this
  obtain ⟨M, hM, hc⟩ := constant (ρ := fun j => ((r.st j).loc t).idxOf x) (N := i)
    (fun j hj => by have := (hstep j hj (hall' j hj)).2; omega)
  obtain ⟨j, hj, ⟨w, hp⟩, hgo⟩ := picks (i := M) hf hd hg (fun j hj => ha j (by omega)) (fun j hj w c hp => by
    have := (steal_empty (r.reach j) t w c hp).2
    have h2 := hall' j (by omega)
    rw [this] at h2; cases h2)
  have h1 := (hstep j (by omega) (hall' j (by omega))).2
  have h2 := hc j hj
  have h3 := hc (j + 1) (by omega)
  have h4 : takeQ t (r.ob j) ≠ [] := by
    have hm := reach_mode (r.reach j)
    simp only [go, hp, hm, if_true] at hgo
    have h5 := hall' j (by omega)
    split at hgo
    · rename_i hq; rw [hq] at h5; cases h5
    · simp only [Option.some.injEq, Prod.mk.injEq] at hgo; rw [← hgo.2]; simp [takeQ]
  have h5 := List.length_pos_iff.2 h4
  omega

/-- `shared_work`: a fiber in the shared queue is taken if one of the threads lives on. -/
theorem shared_taken {r : Run step (init false n)} (hf : r.Fair Event.go) (hd : r.Strong Event.disp) (hg : GivesWay r t)
    (ha : ∀ j, i ≤ j → (r.st j).run t ≠ none) (hx : x ∈ (r.st i).shared) : ∃ j, i ≤ j ∧ ∃ u v, .take u v x ∈ r.ob j := by
  refine Classical.byContradiction fun hn => ?_
  have hstep : ∀ j, i ≤ j → x ∈ (r.st j).shared → x ∈ (r.st (j + 1)).shared ∧
      (r.st (j + 1)).shared.idxOf x + (takeW (r.ob j)).length = (r.st j).shared.idxOf x := by
    intro j hj hx
    obtain ⟨l, hi⟩ := inv_at r j
    refine moves_up (step_shared hi (reach_mode (r.reach j)) (r.next j)) hx fun hm => ?_
    obtain ⟨u, v, hu⟩ := mem_takeW hm
    exact hn ⟨j, hj, u, v, hu⟩
  have hall : ∀ d, x ∈ (r.st (i + d)).shared := by
    intro d
    induction d with
    | zero => exact hx
    | succ d ih => exact (hstep _ (Nat.le_add_right _ _) ih).1
  have hall' : ∀ j, i ≤ j → x ∈ (r.st j).shared := fun j hj => by have := hall (j - i); rwa [Nat.add_sub_cancel' hj] at this
  obtain ⟨M, hM, hc⟩ := constant (ρ := fun j => (r.st j).shared.idxOf x) (N := i)
    (fun j hj => by have := (hstep j hj (hall' j hj)).2; omega)
  obtain ⟨j, hj, ⟨w, hp⟩, hgo⟩ := picks (i := M) hf hd hg (fun j hj => ha j (by omega)) (fun j hj w c hp => by
    have := (steal_empty (r.reach j) t w c hp).1
    rw [reach_mode (r.reach j)] at this; cases this)
  have h1 := (hstep j (by omega) (hall' j (by omega))).2
  have h2 := hc j hj
  have h3 := hc (j + 1) (by omega)
  have h4 : takeW (r.ob j) ≠ [] := by
    have hm := reach_mode (r.reach j)
    obtain ⟨l, hi⟩ := inv_at r j
    simp only [go, hp, hm, Bool.false_eq_true, if_false] at hgo
    have h5 := hall' j (by omega)
    split at hgo
    · rename_i hq; rw [hq] at h5; cases h5
    · rename_i y q hq
      have := hi.shW y (by rw [hq]; simp)
      simp only [Option.some.injEq, Prod.mk.injEq] at hgo; rw [← hgo.2]; simp [takeW, this]
  have h5 := List.length_pos_iff.2 h4
  omega

/-- What is about to be made ready is made ready. -/
theorem aw_ready (hf : r.Fair Event.go) (hp : (r.st i).pc t = .aw x) : ∃ j, i ≤ j ∧ .ready t x ∈ r.ob j := by
  obtain ⟨m, h1, h2, h3, h4, _⟩ := goes hf hp rfl
  by_cases hx : pinned x = true
  · simp only [go, h2, hx, if_true] at h4
    simp only [Option.some.injEq, Prod.mk.injEq] at h4
    exact ⟨m, h1, by rw [← h4.2]; simp⟩
  · have : (r.st (m + 1)).pc t = .push x := by
      simp only [go, h2, hx] at h4
      simp only [Bool.false_eq_true, if_false, Option.some.injEq, Prod.mk.injEq] at h4
      rw [← h4.1]; simp
    obtain ⟨k, h5, h6, h7, h8, _⟩ := goes hf this rfl
    simp only [go, h6] at h8
    refine ⟨k, by omega, ?_⟩
    split at h8 <;> simp only [Option.some.injEq, Prod.mk.injEq] at h8 <;> rw [← h8.2] <;> simp

/-- A fiber that yields is made ready again. -/
theorem yield_ready (hf : r.Fair Event.go) (hr : (r.st i).run t = some x) (hp : (r.st i).pc t = .pick .yield) :
    ∃ j, i ≤ j ∧ .ready t x ∈ r.ob j := by
  have got : ∀ k y, (r.st k).run t = some x → (r.st k).pc t = .got .yield y → ∃ j, k ≤ j ∧ .ready t x ∈ r.ob j := by
    intro k y hr hp
    obtain ⟨m, h1, h2, h3, h4, _⟩ := goes hf hp rfl
    rw [hr] at h3
    simp only [go, h2, h3] at h4
    simp only [Option.some.injEq, Prod.mk.injEq] at h4
    have h5 : (r.st (m + 1)).pc t = .put .yield x := by rw [← h4.1]; simp
    obtain ⟨k2, h6, h7, h8, h9, _⟩ := goes hf h5 rfl
    simp only [go, h7] at h9
    simp only [Option.some.injEq, Prod.mk.injEq] at h9
    obtain ⟨j, h10, h11⟩ := aw_ready (i := k2 + 1) (t := t) (x := x) hf (by rw [← h9.1]; simp)
    exact ⟨j, by omega, h11⟩
  obtain ⟨m, h1, h2, h3, h4, _⟩ := goes hf hp rfl
  rw [hr] at h3
  obtain ⟨l, hi⟩ := inv_at r m
  have hfull : (r.st m).loc t ≠ [] := fun hl => by
    have := hi.empty (t := t) (r := .yield) hl (by rw [h2]; rfl) (by rw [h2]; rfl) (by rw [h2]; rfl)
    cases this
  by_cases hm : (r.st m).stealing = true
  · simp only [go, h2, hm, if_true] at h4
    split at h4
    · rename_i hq; exact absurd hq hfull
    · rename_i y q hq
      simp only [Option.some.injEq, Prod.mk.injEq] at h4
      obtain ⟨j, h5, h6⟩ := got (m + 1) y (by rw [← h4.1]; exact h3) (by rw [← h4.1]; simp)
      exact ⟨j, by omega, h6⟩
  · simp only [go, h2, hm, Bool.false_eq_true, if_false] at h4
    split at h4
    · simp only [Option.some.injEq, Prod.mk.injEq] at h4
      have h5 : (r.st (m + 1)).pc t = .lpick .yield := by rw [← h4.1]; simp
      have h6 : (r.st (m + 1)).run t = some x := by rw [← h4.1]; exact h3
      obtain ⟨k, k1, k2, k3, k4, _⟩ := goes hf h5 rfl
      rw [h6] at k3
      obtain ⟨l', hi'⟩ := inv_at r k
      simp only [go, k2] at k4
      split at k4
      · rename_i hq
        have := hi'.empty (t := t) (r := .yield) hq (by rw [k2]; rfl) (by rw [k2]; rfl) (by rw [k2]; rfl)
        cases this
      · rename_i y q hq
        simp only [Option.some.injEq, Prod.mk.injEq] at k4
        obtain ⟨j, h5, h6⟩ := got (k + 1) y (by rw [← k4.1]; exact k3) (by rw [← k4.1]; simp)
        exact ⟨j, by omega, h6⟩
    · rename_i y q hq
      simp only [Option.some.injEq, Prod.mk.injEq] at h4
      obtain ⟨j, h5, h6⟩ := got (m + 1) y (by rw [← h4.1]; exact h3) (by rw [← h4.1]; simp)
      exact ⟨j, by omega, h6⟩

end Verif.Multi
