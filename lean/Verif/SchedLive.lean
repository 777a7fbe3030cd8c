import Verif.SchedTrace

/-! # The scheduler: what a thread does on its own -/

namespace Verif.Sch

variable {s s' s'' : State} {t : Tid} {x y : Cx} {o o' tr : List Obs}

/-- Thread `t` gets from `s` to `s'` by steps of its own, without help from the code of the program, other threads or
the clock. -/
def Alone (t : Tid) (s s' : State) (o : List Obs) : Prop :=
  ∃ k, exec step s (List.replicate k (.run t)) = some (s', o)

theorem Alone.refl : Alone t s s [] := ⟨0, rfl⟩

theorem Alone.head (h1 : step s (.run t) = some (s', o)) (h2 : Alone t s' s'' o') : Alone t s s'' (o ++ o') := by
  obtain ⟨k, h2⟩ := h2
  exact ⟨k + 1, by simp [List.replicate_succ, exec, h1, h2]⟩

theorem Alone.one (h1 : step s (.run t) = some (s', o)) : Alone t s s' o := by
  have := Alone.head h1 (Alone.refl (t := t)); rwa [List.append_nil] at this

theorem Alone.trans (h1 : Alone t s s' o) (h2 : Alone t s' s'' o') : Alone t s s'' (o ++ o') := by
  obtain ⟨k, h1⟩ := h1
  induction k generalizing s o with
  | zero => simp only [List.replicate_zero, exec, Option.some.injEq, Prod.mk.injEq] at h1; obtain ⟨rfl, rfl⟩ := h1; exact h2
  | succ k ih =>
    simp only [List.replicate_succ, exec] at h1
    split at h1
    · cases h1
    · rename_i s1 o1 e1
      split at h1
      · cases h1
      · rename_i s2 o2 e2
        simp only [Option.some.injEq, Prod.mk.injEq] at h1
        obtain ⟨rfl, rfl⟩ := h1
        rw [List.append_assoc]
        exact Alone.head e1 (ih e2)

theorem Alone.reach (h : Alone t s s' o) : Reach step s s' o := by
  obtain ⟨k, h⟩ := h; exact reach_of_exec h

/-- What the dispatcher of thread `t` does not change. -/
structure Keep (t : Tid) (s s' : State) : Prop where
  act : s'.active t = some (.disp t)
  sd  : s'.sd = s.sd
  wq  : s'.wq = s.wq
  now : s'.now = s.now
  rq  : s.rq t ≠ [] → s'.rq t ≠ []
  nt  : ∀ z u, s'.pc z = .notify u → s.pc z = .notify u
  sg  : ∀ z u, s'.pc z = .signal u → s.pc z = .signal u
  main : s'.pc (.main t) = s.pc (.main t) ∨ s'.pc (.main t) = .user

theorem Keep.refl (h : s.active t = some (.disp t)) : Keep t s s := ⟨h, rfl, rfl, rfl, id, fun _ _ => id, fun _ _ => id, .inl rfl⟩

theorem Keep.trans (h1 : Keep t s s') (h2 : Keep t s' s'') : Keep t s s'' :=
  ⟨h2.act, h2.sd.trans h1.sd, h2.wq.trans h1.wq, h2.now.trans h1.now, h2.rq ∘ h1.rq, fun z u => h1.nt z u ∘ h2.nt z u,
    fun z u => h1.sg z u ∘ h2.sg z u, by rcases h2.main with h | h <;> rcases h1.main with h' | h' <;> simp_all⟩

theorem Keep.label (h : s.active t = some (.disp t)) {p : Pc} (h1 : ∀ u, p ≠ .notify u) (h2 : ∀ u, p ≠ .signal u) {fl sg : Tid → Bool} :
    Keep t s { s with pc := set s.pc (.disp t) p, flag := fl, sig := sg } := by
  refine ⟨h, rfl, rfl, rfl, id, ?_, ?_, ?_⟩
  · intro z u; simp only [set_apply]; split
    · intro e; exact absurd e (h1 u)
    · exact id
  · intro z u; simp only [set_apply]; split
    · intro e; exact absurd e (h2 u)
    · exact id
  · simp

theorem Alone.inv (h : Inv s) (hs : step s (.run t) = some (s', o)) : Inv s' := (inv_step h hs).1

theorem go_timers {n : Nat} (h : Inv s) (ha : s.active t = some (.disp t)) (hp : s.pc (.disp t) = .timers n) :
    ∃ s' o, Alone t s s' (o ++ [.looked t n]) ∧ Keep t s s' ∧ s'.pc (.disp t) = .pick ∧ s'.rr = s.rr ∧ s'.flag = s.flag := by
  generalize hl : s.sl t = l
  induction l generalizing s with
  | nil =>
    refine ⟨{ s with pc := set s.pc (.disp t) .pick }, [], Alone.one ?_, Keep.label ha (by simp) (by simp), by simp, rfl, rfl⟩
    simp [step, ha, run, hp, hl]
  | cons y l ih =>
    have hns := h.c.notSl h.a h.b ha (by simp [hp]) t
    rw [hl] at hns
    simp only [List.mem_cons, not_or] at hns
    by_cases hle : s.tp y ≤ n
    · by_cases he : s.epoch y = s.sep y
      · have hN := h.c.slN t
        rw [hl, List.nodup_cons] at hN
        have h1 : step s (.run t) = some ({ s with sl := upd s.sl t l, epoch := set s.epoch y (s.epoch y + 1), pc := set s.pc y .user, rq := upd s.rq t (s.rq t ++ [y]) }, [.expired y n, .ready t y]) := by
          simp only [step, ha, run, hp, hl, if_pos hle, if_pos he, schedule, upd_same, upd_upd', List.erase_of_not_mem hN.1]
        have hk : Keep t s { s with sl := upd s.sl t l, epoch := set s.epoch y (s.epoch y + 1), pc := set s.pc y .user, rq := upd s.rq t (s.rq t ++ [y]) } := by
          refine ⟨ha, rfl, rfl, rfl, by simp, ?_, ?_, ?_⟩
          · intro z u; simp only [set_apply]; split
            · simp
            · exact id
          · intro z u; simp only [set_apply]; split
            · simp
            · exact id
          · simp only [set_apply]; split <;> simp
        obtain ⟨s', o, h2, h3, h4, h5, h6⟩ := ih (Alone.inv h h1) ha (by simpa [hns.1] using hp) (by simp)
        exact ⟨s', [.expired y n, .ready t y] ++ o, by simpa using Alone.head h1 h2, hk.trans h3, h4, h5, h6⟩
      · have h1 : step s (.run t) = some ({ s with sl := upd s.sl t l }, []) := by
          simp [step, ha, run, hp, hl, hle, he]
        obtain ⟨s', o, h2, h3, h4, h5, h6⟩ := ih (Alone.inv h h1) ha hp (by simp)
        have hk : Keep t s { s with sl := upd s.sl t l } := ⟨ha, rfl, rfl, rfl, id, fun _ _ => id, fun _ _ => id, .inl rfl⟩
        exact ⟨s', o, by simpa using Alone.head h1 h2, hk.trans h3, h4, h5, h6⟩
    · refine ⟨{ s with pc := set s.pc (.disp t) .pick }, [], Alone.one ?_, Keep.label ha (by simp) (by simp), by simp, rfl, rfl⟩
      simp [step, ha, run, hp, hl, hle]

theorem go_clock (h : Inv s) (ha : s.active t = some (.disp t)) (hp : s.pc (.disp t) = .clock) :
    ∃ s' o, Alone t s s' (o ++ [.looked t s.now]) ∧ Keep t s s' ∧ s'.pc (.disp t) = .pick ∧ s'.rr = s.rr ∧ s'.flag = s.flag := by
  have h1 : step s (.run t) = some ({ s with pc := set s.pc (.disp t) (.timers s.now) }, []) := by
    simp [step, ha, run, hp]
  have hk : Keep t s { s with pc := set s.pc (.disp t) (.timers s.now) } := Keep.label ha (by simp) (by simp)
  obtain ⟨s', o, h2, h3, h4, h5, h6⟩ := go_timers (n := s.now) (Alone.inv h h1) ha (by simp)
  exact ⟨s', o, by simpa using Alone.head h1 h2, hk.trans h3, h4, h5, h6⟩

theorem go_collect (h : Inv s) (ha : s.active t = some (.disp t)) (hp : s.pc (.disp t) = .collect) :
    ∃ s' o, Alone t s s' (o ++ [.looked t s.now]) ∧ Keep t s s' ∧ s'.pc (.disp t) = .pick ∧ s'.rr t = [] ∧ (s.rr t ≠ [] → s'.rq t ≠ []) ∧ ∀ z ∈ s.rr t, .ready t z ∈ o := by
  have hk : Keep t s { s with rr := upd s.rr t [], sl := upd s.sl t ((s.rr t).foldl List.erase (s.sl t)), rq := upd s.rq t (s.rq t ++ s.rr t), pc := set s.pc (.disp t) .clock } := by
    have hk := Keep.label ha (p := .clock) (by simp) (by simp) (fl := s.flag) (sg := s.sig)
    exact ⟨hk.act, hk.sd, hk.wq, hk.now, by simp +contextual, hk.nt, hk.sg, hk.main⟩
  have h1 : step s (.run t) = some ({ s with rr := upd s.rr t [], sl := upd s.sl t ((s.rr t).foldl List.erase (s.sl t)), rq := upd s.rq t (s.rq t ++ s.rr t), pc := set s.pc (.disp t) .clock }, (s.rr t).map (.ready t)) := by
    simp only [step, ha, run, hp, scheduleAll_eq]
  obtain ⟨s', o, h2, h3, h4, h5, h6⟩ := go_clock (Alone.inv h h1) ha (by simp)
  refine ⟨s', (s.rr t).map (.ready t) ++ o, ?_, hk.trans h3, h4, by rw [h5]; simp, fun hr => h3.rq (by simp [hr]), fun z hz => by simp [hz]⟩
  rw [List.append_assoc]
  exact Alone.head h1 h2

theorem go_top (h : Inv s) (ha : s.active t = some (.disp t)) (hp : s.pc (.disp t) = .top) (hl : ¬ (s.sd t = true ∧ s.wq t = [])) :
    ∃ s' o, Alone t s s' (o ++ [.looked t s.now]) ∧ Keep t s s' ∧ s'.pc (.disp t) = .pick ∧ s'.rr t = [] ∧ (s.rr t ≠ [] → s'.rq t ≠ []) ∧ ∀ z ∈ s.rr t, .ready t z ∈ o := by
  have hk : ∀ fl tq, Keep t s { s with flag := fl, tq := tq, pc := set s.pc (.disp t) .collect } := by
    intro fl tq
    have hk := Keep.label ha (p := .collect) (by simp) (by simp) (fl := fl) (sg := s.sig)
    exact ⟨hk.act, hk.sd, hk.wq, hk.now, id, hk.nt, hk.sg, hk.main⟩
  have h1 : ∃ fl, step s (.run t) = some ({ s with flag := fl, tq := upd s.tq t [], pc := set s.pc (.disp t) .collect }, (release s t).2) := by
    by_cases hsd : s.sd t = true
    · have hw : s.wq t ≠ [] := fun hw => hl ⟨hsd, hw⟩
      exact ⟨upd s.flag t true, by simp [step, ha, run, hp, hsd, hw, release]⟩
    · exact ⟨s.flag, by simp [step, ha, run, hp, hsd, release]⟩
  obtain ⟨fl, h1⟩ := h1
  obtain ⟨s', o, h2, h3, h4, h5, h6, h7⟩ := go_collect (Alone.inv h h1) ha (by simp)
  refine ⟨s', (release s t).2 ++ o, ?_, (hk _ _).trans h3, h4, h5, h6, fun z hz => List.mem_append_right _ (h7 z hz)⟩
  rw [List.append_assoc]
  exact Alone.head h1 h2

/-- The dispatcher, about to wait, does not wait: its deadline has passed or it has been notified. -/
theorem go_idle {dl : Option Nat} (h : Inv s) (ha : s.active t = some (.disp t)) (hp : (s.pc (.disp t)).wait = some dl)
    (hw : dl.any (· ≤ s.now) = true ∨ s.flag t = true ∧ (∀ dl, s.pc (.disp t) = .cnd dl → s.sig t = true)) (hl : ¬ (s.sd t = true ∧ s.wq t = [])) :
    ∃ s' o, Alone t s s' (o ++ [.looked t s.now]) ∧ Keep t s s' ∧ s'.pc (.disp t) = .pick ∧ s'.rr t = [] ∧ (s.rr t ≠ [] → s'.rq t ≠ []) ∧ ∀ z ∈ s.rr t, .ready t z ∈ o := by
  have fin : ∀ fl sg s0, s0 = { s with flag := fl, sig := sg, pc := set s.pc (.disp t) .top } → Alone t s s0 [] →
      ∃ s' o, Alone t s s' (o ++ [.looked t s.now]) ∧ Keep t s s' ∧ s'.pc (.disp t) = .pick ∧ s'.rr t = [] ∧ (s.rr t ≠ [] → s'.rq t ≠ []) ∧ ∀ z ∈ s.rr t, .ready t z ∈ o := by
    rintro fl sg _ rfl h1
    have hk : Keep t s { s with flag := fl, sig := sg, pc := set s.pc (.disp t) .top } := Keep.label ha (by simp) (by simp)
    have hi : Inv { s with flag := fl, sig := sg, pc := set s.pc (.disp t) .top } := by
      obtain ⟨k, h1⟩ := h1
      exact (Reach.inv (fun s _ => Inv s) h (fun _ _ _ _ _ _ h hs => (inv_step h hs).1) (reach_of_exec h1))
    obtain ⟨s', o, h2, h3, h4, h5, h6⟩ := go_top hi ha (by simp) hl
    exact ⟨s', o, by simpa using h1.trans h2, hk.trans h3, h4, h5, h6⟩
  cases hpc : s.pc (.disp t) <;> simp only [hpc, Pc.wait, Option.some.injEq, reduceCtorEq] at hp
  case cnd d =>
    subst hp
    refine fin (upd s.flag t false) s.sig _ rfl (Alone.one ?_)
    rcases hw with hw | hw
    · simp [step, ha, run, hpc, hw]
    · simp [step, ha, run, hpc, hw.1, hw.2 d hpc]
  case idle d =>
    subst hp
    by_cases hf : s.flag t = true
    · exact fin (upd s.flag t false) s.sig _ rfl (Alone.one (by simp [step, ha, run, hpc, hf]))
    · have hw : d.any (· ≤ s.now) = true := hw.resolve_right fun hw => hf hw.1
      have h1 : step s (.run t) = some ({ s with sig := upd s.sig t false, pc := set s.pc (.disp t) (.cnd d) }, []) := by
        simp [step, ha, run, hpc, hf]
      have h2 : step { s with sig := upd s.sig t false, pc := set s.pc (.disp t) (.cnd d) } (.run t) =
          some ({ s with flag := upd s.flag t false, sig := upd s.sig t false, pc := set (set s.pc (.disp t) (.cnd d)) (.disp t) .top }, []) := by
        simp [step, ha, run, hw]
      refine fin (upd s.flag t false) (upd s.sig t false) _ ?_ (Alone.head h1 (Alone.one h2))
      simp only [State.mk.injEq, true_and, and_true]
      funext z; simp only [set_apply]; split <;> rfl

theorem go_pick (h : Inv s) (ha : s.active t = some (.disp t)) (hp : s.pc (.disp t) = .pick) (hr : s.rq t ≠ []) :
    ∃ s' y, Alone t s s' [.run t y, .ready t (.disp t)] := by
  cases hq : s.rq t with
  | nil => exact absurd hq hr
  | cons y l =>
    obtain ⟨n1, n2, n3, n4⟩ := next_ready h ha hq
    cases hs : step s (.run t) with
    | none => simp [step, ha, run, hp, hq, leave] at hs
    | some p =>
      refine ⟨p.1, y, Alone.one ?_⟩
      rw [hs]
      simp only [step, ha, run, hp, hq, leave, switch, schedule, n4] at hs
      simp at hs
      rw [← hs]

theorem reach_alone (h : Reach step init s tr) (h1 : Alone t s s' o) : Reach step init s' (tr ++ o) := h.trans h1.reach

theorem pick_idle (ha : s.active t = some (.disp t)) (hp : s.pc (.disp t) = .pick) (hr : s.rq t = []) :
    Alone t s { s with pc := set s.pc (.disp t) (.idle ((s.sl t).head?.map s.tp)) } [] :=
  Alone.one (by simp [step, ha, run, hp, hr])

/-- A dispatcher with something to do does it, without waiting. -/
theorem go (h : Reach step init s tr) (ha : s.active t = some (.disp t)) (hl : ¬ (s.sd t = true ∧ s.wq t = []))
    (hn : ∀ z, s.pc z ≠ .notify t) (hg : ∀ z, s.pc z ≠ .signal t) (hx : s.rq t ≠ [] ∨ s.rr t ≠ []) :
    ∃ s' o y, Alone t s s' (o ++ [.run t y, .ready t (.disp t)]) := by
  have hi := reach_inv h
  -- from `pick` with a ready fiber
  have fin : ∀ s1 o1, Alone t s s1 o1 → s1.active t = some (.disp t) → s1.pc (.disp t) = .pick → s1.rq t ≠ [] →
      ∃ s' o y, Alone t s s' (o ++ [.run t y, .ready t (.disp t)]) := by
    intro s1 o1 h1 h2 h3 h4
    obtain ⟨s2, y, h5⟩ := go_pick (reach_inv (reach_alone h h1)) h2 h3 h4
    exact ⟨s2, o1, y, h1.trans h5⟩
  -- from a place where it might wait
  have wt : ∀ s1 o1, Alone t s s1 o1 → Keep t s s1 → (s1.pc (.disp t)).wait.isSome → s1.rr t ≠ [] →
      ∃ s' o y, Alone t s s' (o ++ [.run t y, .ready t (.disp t)]) := by
    intro s1 o1 h1 h2 h3 h4
    have hid := reach_id (reach_alone h h1)
    obtain ⟨dl, h3⟩ := Option.isSome_iff_exists.1 h3
    have hf : s1.flag t = true := by
      rcases hid.rem t h4 (by cases hp : s1.pc (.disp t) <;> simp [hp, Pc.wait] at h3 <;> rfl) with h5 | ⟨z, h5⟩
      · exact h5
      · exact absurd (h2.nt z t h5) (hn z)
    obtain ⟨s2, o2, e1, e2, e3, e4, e5, -⟩ := go_idle (reach_inv (reach_alone h h1)) h2.act h3 (.inr ⟨hf, fun dl hd => by
      rcases hid.sg t dl hd hf with h5 | ⟨z, h5⟩
      · exact h5
      · exact absurd (h2.sg z t h5) (hg z)⟩) (by rw [h2.sd, h2.wq]; exact hl)
    exact fin s2 _ (h1.trans e1) e2.act e3 (e5 h4)
  -- from `pick`
  have pk : ∀ s1 o1, Alone t s s1 o1 → Keep t s s1 → s1.pc (.disp t) = .pick → s1.rq t ≠ [] ∨ s1.rr t ≠ [] →
      ∃ s' o y, Alone t s s' (o ++ [.run t y, .ready t (.disp t)]) := by
    intro s1 o1 h1 h2 h3 h4
    by_cases hr : s1.rq t = []
    · have h4 := h4.resolve_left (· hr)
      exact wt _ _ (h1.trans (pick_idle h2.act h3 hr)) (h2.trans (Keep.label h2.act (by simp) (by simp))) (by simp [Pc.wait]) h4
    · exact fin s1 o1 h1 h2.act h3 hr
  have k0 : Keep t s s := Keep.refl ha
  cases hp : s.pc (.disp t)
  case top =>
    obtain ⟨s1, o1, e1, e2, e3, e4, e5, -⟩ := go_top hi ha hp hl
    exact fin s1 _ e1 e2.act e3 (hx.elim e2.rq e5)
  case collect =>
    obtain ⟨s1, o1, e1, e2, e3, e4, e5, -⟩ := go_collect hi ha hp
    exact fin s1 _ e1 e2.act e3 (hx.elim e2.rq e5)
  case clock =>
    obtain ⟨s1, o1, e1, e2, e3, e4, e5⟩ := go_clock hi ha hp
    exact pk s1 _ e1 e2 e3 (by rw [e4]; exact hx.imp_left e2.rq)
  case timers n =>
    obtain ⟨s1, o1, e1, e2, e3, e4, e5⟩ := go_timers hi ha hp
    exact pk s1 _ e1 e2 e3 (by rw [e4]; exact hx.imp_left e2.rq)
  case pick => exact pk s [] .refl k0 hp hx
  case idle dl => exact wt s [] .refl k0 (by simp [hp, Pc.wait]) (hx.resolve_left (· ((reach_id h).idl t dl (by simp [hp, Pc.wait])).1))
  case cnd dl => exact wt s [] .refl k0 (by simp [hp, Pc.wait]) (hx.resolve_left (· ((reach_id h).idl t dl (by simp [hp, Pc.wait])).1))
  case last => have := hi.a.last t (.inl hp); exact absurd ⟨this.2, this.1⟩ hl
  all_goals
    have h1 := hi.a.actPc _ _ ha
    have h2 := hi.a.kDisp t
    simp [hp, Pc.busy, Pc.disp] at h1 h2

/-- A suspended or ready fiber keeps the thread from shutting down. -/
theorem not_last (h : Inv s) (hh : s.home x = t) (hw : (s.pc x).waits ∨ s.pc x = .user) : ¬ (s.sd t = true ∧ s.wq t = []) := by
  rintro ⟨h1, h2⟩
  have hpc : s.pc x ≠ .unborn ∧ s.pc x ≠ .leaving ∧ s.pc x ≠ .dead ∧ (s.pc x).shut = false ∧ (s.pc x).disp = false := by
    cases hp : s.pc x <;> simp [hp, Pc.waits, Pc.shut, Pc.disp] at hw ⊢
  cases x with
  | main u =>
    simp at hh; subst hh
    rcases (h.a.sd u).1 h1 with h3 | h3
    · rw [hpc.2.2.2.1] at h3; cases h3
    · exact hpc.2.2.1 h3
  | disp u =>
    rcases h.a.kDisp u with h3 | h3 | h3
    · exact hpc.1 h3
    · exact hpc.2.2.1 h3
    · rw [hpc.2.2.2.2] at h3; cases h3
  | work n =>
    have := (h.a.wq t (.work n)).2 ⟨⟨n, rfl⟩, hh, hpc.1, hpc.2.1, hpc.2.2.1⟩
    rw [h2] at this; simp at this

theorem not_noWake {d : Option Nat} {a b : List Obs} (hr : Runs Spec.init (a ++ b)) (h1 : (replay a).st x = .waiting d)
    (h2 : (replay (a ++ b)).st x ≠ .waiting d) : ¬ NoWake x b := by
  intro hb
  obtain ⟨a1, a2, rfl, h3⟩ := waiting_from hr.left h1
  refine h2 ?_
  rw [List.append_assoc, List.cons_append] at hr ⊢
  refine stays_waiting hr ?_
  simp only [NoWake, List.mem_append, not_or]
  exact ⟨⟨h3.1, hb.1⟩, fun n => ⟨h3.2 n, hb.2 n⟩⟩

/-- A dispatcher with a sleeper whose time has come makes it runnable, unless it resumes another fiber. -/
theorem go_late {d : Nat} (h : Reach step init s tr) (ha : s.active t = some (.disp t)) (hh : s.home x = t)
    (hx : (replay tr).st x = .waiting (some d)) (hd : d ≤ s.now) :
    ∃ s' o, Alone t s s' o ∧ (¬ NoWake x o ∨ ∃ y, .run t y ∈ o) := by
  have hi := reach_inv h
  -- after a look at the clock
  have look : ∀ {s tr s' o n}, Reach step init s tr → s.home x = t → (replay tr).st x = .waiting (some d) → d ≤ n →
      Alone t s s' (o ++ [.looked t n]) → ¬ NoWake x (o ++ [.looked t n]) := by
    intro s tr s' o n h hh hx hn h1
    have hr := (reach_sim (reach_alone h h1)).1
    have hs := reach_sim h
    have hab : (replay tr).st x ≠ .absent := by rw [hx]; simp
    have hon := hs.2.on x (by intro e; have := hs.2.st x; rw [hx] at this; simp [view, e] at this)
    rw [← List.append_assoc] at hr
    have hlk := Runs.split (b := []) hr
    change (replay (tr ++ o)).ok _ at hlk
    have hst := on_stable hr.left hab
    have := not_noWake hr.left hx (fun hw => by
      have := hlk x d (by rw [hst.2, hon, hh]) hw
      omega)
    intro hn
    refine this ⟨fun hm => hn.1 (by simp [hm]), fun m hm => hn.2 m (by simp [hm])⟩
  have wt : ∀ {s tr}, Reach step init s tr → s.home x = t → (replay tr).st x = .waiting (some d) →
      (s.pc x).waits ∧ x ∈ s.sl t ∧ s.tp x = d ∧ ¬ (s.sd t = true ∧ s.wq t = []) := by
    intro s tr h hh hx
    rw [(reach_sim h).2.st] at hx
    have := view_waiting hx
    rw [hh] at this
    exact ⟨this.1, this.2.1, this.2.2, not_last (reach_inv h) hh (.inl this.1)⟩
  have late : ∀ {s tr}, Reach step init s tr → s.home x = t → (replay tr).st x = .waiting (some d) → d ≤ s.now →
      ((s.sl t).head?.map s.tp).any (· ≤ s.now) = true := by
    intro s tr h hh hx hd
    obtain ⟨-, hx, hxd, -⟩ := wt h hh hx
    cases hs : s.sl t with
    | nil => rw [hs] at hx; simp at hx
    | cons y l =>
      have h1 := (reach_id h).slS t
      rw [hs, List.pairwise_cons] at h1
      rw [hs, List.mem_cons] at hx
      have : s.tp y ≤ s.tp x := by
        rcases hx with rfl | hx
        · exact Nat.le_refl _
        · exact h1.1 x hx
      simp; omega
  have pk : ∀ {s1 tr1}, Reach step init s1 tr1 → s1.active t = some (.disp t) → s1.pc (.disp t) = .pick →
      s1.home x = t → (replay tr1).st x = .waiting (some d) → d ≤ s1.now →
      ∃ s' o, Alone t s1 s' o ∧ (¬ NoWake x o ∨ ∃ y, .run t y ∈ o) := by
    intro s tr h ha hp hh hx hd
    by_cases hr : s.rq t = []
    · have hlate := late h hh hx hd
      obtain ⟨s1, o1, e1, -⟩ := go_idle (dl := (s.sl t).head?.map s.tp) (reach_inv (reach_alone h (pick_idle ha hp hr))) ha
        (by simp [Pc.wait]) (.inl hlate) (wt h hh hx).2.2.2
      have h1 := (pick_idle ha hp hr).trans e1
      rw [List.nil_append] at h1
      exact ⟨s1, _, h1, .inl (look h hh hx hd h1)⟩
    · obtain ⟨s2, y, h5⟩ := go_pick (reach_inv h) ha hp hr
      exact ⟨s2, _, h5, .inr ⟨y, by simp⟩⟩
  have nl := (wt h hh hx).2.2.2
  cases hp : s.pc (.disp t)
  case top =>
    obtain ⟨s1, o1, e1, -⟩ := go_top hi ha hp nl
    exact ⟨s1, _, e1, .inl (look h hh hx hd e1)⟩
  case collect =>
    obtain ⟨s1, o1, e1, -⟩ := go_collect hi ha hp
    exact ⟨s1, _, e1, .inl (look h hh hx hd e1)⟩
  case clock =>
    obtain ⟨s1, o1, e1, -⟩ := go_clock hi ha hp
    exact ⟨s1, _, e1, .inl (look h hh hx hd e1)⟩
  case timers n =>
    obtain ⟨s1, o1, e1, e2, e3, -⟩ := go_timers hi ha hp
    have hr1 := reach_alone h e1
    have hs1 := reach_sim hr1
    by_cases hx1 : (replay (tr ++ (o1 ++ [.looked t n]))).st x = .waiting (some d)
    · have hab : (replay tr).st x ≠ .absent := by rw [hx]; simp
      have hst := on_stable hs1.1 hab
      have hh1 : s1.home x = t := by
        rw [← hs1.2.on x (by intro e; rw [hs1.2.st] at hx1; simp [view, e] at hx1), hst.2,
          (reach_sim h).2.on x (by intro e; rw [(reach_sim h).2.st] at hx; simp [view, e] at hx), hh]
      obtain ⟨s2, o2, e4, e5⟩ := pk hr1 e2.act e3 hh1 hx1 (by rw [e2.now]; exact hd)
      refine ⟨s2, _, e1.trans e4, ?_⟩
      rcases e5 with e5 | ⟨y, e5⟩
      · exact .inl fun hn => e5 ⟨fun hm => hn.1 (by simp [hm]), fun m hm => hn.2 m (by simp [hm])⟩
      · exact .inr ⟨y, by simp [e5]⟩
    · exact ⟨s1, _, e1, .inl (not_noWake hs1.1 hx hx1)⟩
  case pick => exact pk h ha hp hh hx hd
  case idle dl =>
    have := (reach_id h).idl t dl (by simp [hp, Pc.wait])
    obtain ⟨s1, o1, e1, -⟩ := go_idle (dl := dl) hi ha (by simp [hp, Pc.wait]) (.inl (by rw [this.2]; exact late h hh hx hd)) nl
    exact ⟨s1, _, e1, .inl (look h hh hx hd e1)⟩
  case cnd dl =>
    have := (reach_id h).idl t dl (by simp [hp, Pc.wait])
    obtain ⟨s1, o1, e1, -⟩ := go_idle (dl := dl) hi ha (by simp [hp, Pc.wait]) (.inl (by rw [this.2]; exact late h hh hx hd)) nl
    exact ⟨s1, _, e1, .inl (look h hh hx hd e1)⟩
  case last => have := hi.a.last t (.inl hp); exact absurd ⟨this.2, this.1⟩ nl
  all_goals
    have h1 := hi.a.actPc _ _ ha
    have h2 := hi.a.kDisp t
    simp [hp, Pc.busy, Pc.disp] at h1 h2

/-- With no fibers left, the dispatcher of a thread whose main function has returned ends the thread. -/
theorem go_end (h : Reach step init s tr) (ha : s.active t = some (.disp t)) (hsd : s.sd t = true) (hw : s.wq t = []) :
    ∃ s' o, Alone t s s' (o ++ [.ended t]) := by
  have hq : ∀ {s}, Inv s → s.active t = some (.disp t) → s.sd t = true → s.wq t = [] → s.rq t = [] := by
    intro s hi ha hsd hw
    refine List.eq_nil_iff_forall_not_mem.2 fun z hz => ?_
    obtain ⟨h1, h2, h3⟩ := hi.b.rq t z hz
    rcases h3 with h3 | h3
    · exact not_last hi h1 (.inr h3) ⟨hsd, hw⟩
    · cases z with
      | main u => exact (hi.a.kMain u).1 (by rw [h3]; rfl)
      | work n => exact (hi.a.kWork n).1 (by rw [h3]; rfl)
      | disp u => simp at h1; subst h1; exact h2 ha
  have lst : ∀ {s tr}, Reach step init s tr → s.active t = some (.disp t) → s.pc (.disp t) = .last → ∃ s' o, Alone t s s' (o ++ [.ended t]) := by
    intro s tr h ha hp
    have hi := reach_inv h
    cases hs : step s (.run t) with
    | none => simp [step, ha, run, hp] at hs
    | some p =>
      have h1 : step s (.run t) = some (p.1, p.2) := hs
      simp only [step, ha, run, hp, switch, release] at hs
      simp only [Option.some.injEq] at hs
      refine ⟨{ p.1 with active := upd p.1.active t none, gone := upd p.1.gone t true, pc := set p.1.pc (.main t) .dead }, p.2, Alone.head h1 (Alone.one ?_)⟩
      rw [← hs]
      simp [step, run]
  have top : ∀ {s tr}, Reach step init s tr → s.active t = some (.disp t) → s.sd t = true → s.wq t = [] → s.pc (.disp t) = .top →
      ∃ s' o, Alone t s s' (o ++ [.ended t]) := by
    intro s tr h ha hsd hw hp
    have h1 : step s (.run t) = some ({ s with flag := upd s.flag t true, pc := set s.pc (.disp t) .last }, []) := by
      simp [step, ha, run, hp, hsd, hw]
    obtain ⟨s', o, h2⟩ := lst (h.tail _ h1) ha (by simp)
    exact ⟨s', o, by simpa using Alone.head h1 h2⟩
  have idl : ∀ {s tr dl}, Reach step init s tr → s.active t = some (.disp t) → s.sd t = true → s.wq t = [] → s.pc (.disp t) = .idle dl →
      ∃ s' o, Alone t s s' (o ++ [.ended t]) := by
    intro s tr dl h ha hsd hw hp
    have hf := (reach_id h).sdf t hsd (by rw [hp]; rfl)
    have h1 : step s (.run t) = some ({ s with flag := upd s.flag t false, pc := set s.pc (.disp t) .top }, []) := by
      simp [step, ha, run, hp, hf]
    obtain ⟨s', o, h2⟩ := top (h.tail _ h1) ha hsd hw (by simp)
    exact ⟨s', o, by simpa using Alone.head h1 h2⟩
  have pk : ∀ {s tr}, Reach step init s tr → s.active t = some (.disp t) → s.sd t = true → s.wq t = [] → s.pc (.disp t) = .pick →
      ∃ s' o, Alone t s s' (o ++ [.ended t]) := by
    intro s tr h ha hsd hw hp
    have h1 := pick_idle ha hp (hq (reach_inv h) ha hsd hw)
    obtain ⟨s', o, h2⟩ := idl (reach_alone h h1) ha hsd hw (by simp; rfl)
    exact ⟨s', o, by simpa using h1.trans h2⟩
  have fin : ∀ {s1 o1}, Alone t s s1 o1 → Keep t s s1 → s1.pc (.disp t) = .pick → ∃ s' o, Alone t s s' (o ++ [.ended t]) := by
    intro s1 o1 h1 h2 h3
    obtain ⟨s', o, h4⟩ := pk (reach_alone h h1) h2.act (by rw [h2.sd, hsd]) (by rw [h2.wq, hw]) h3
    exact ⟨s', o1 ++ o, by rw [List.append_assoc]; exact h1.trans h4⟩
  have hi := reach_inv h
  cases hp : s.pc (.disp t)
  case top => exact top h ha hsd hw hp
  case collect => obtain ⟨s1, o1, e1, e2, e3, -⟩ := go_collect hi ha hp; exact fin e1 e2 e3
  case clock => obtain ⟨s1, o1, e1, e2, e3, -⟩ := go_clock hi ha hp; exact fin e1 e2 e3
  case timers n => obtain ⟨s1, o1, e1, e2, e3, -⟩ := go_timers hi ha hp; exact fin e1 e2 e3
  case pick => exact pk h ha hsd hw hp
  case idle dl => exact idl h ha hsd hw hp
  case cnd dl => exact absurd hp ((reach_id h).sdc t dl hsd)
  case last => exact lst h ha hp
  all_goals
    have h1 := hi.a.actPc _ _ ha
    have h2 := hi.a.kDisp t
    simp [hp, Pc.busy, Pc.disp] at h1 h2

/-- A dispatcher that is about to block, blocked, or at the start of its loop puts remotely woken fibers into the ready queue. -/
theorem go_wake (h : Reach step init s tr) (ha : s.active t = some (.disp t)) (hx : x ∈ s.rr t)
    (hn : ∀ z, s.pc z ≠ .notify t) (hg : ∀ z, s.pc z ≠ .signal t) (hp : (s.pc (.disp t)).wait.isSome ∨ s.pc (.disp t) = .top) :
    ∃ s' o y, Alone t s s' (o ++ [.run t y, .ready t (.disp t)]) ∧ .ready t x ∈ o := by
  have hi := reach_inv h
  have hr : s.rr t ≠ [] := List.ne_nil_of_mem hx
  have hxr := hi.b.rr t x hx
  have nl := not_last hi hxr.1 (.inr hxr.2.2.1)
  have fin : ∀ s1 o1, Alone t s s1 o1 → s1.active t = some (.disp t) → s1.pc (.disp t) = .pick → s1.rq t ≠ [] → .ready t x ∈ o1 →
      ∃ s' o y, Alone t s s' (o ++ [.run t y, .ready t (.disp t)]) ∧ .ready t x ∈ o := by
    intro s1 o1 h1 h2 h3 h4 h5
    obtain ⟨s2, y, h6⟩ := go_pick (reach_inv (reach_alone h h1)) h2 h3 h4
    exact ⟨s2, o1, y, h1.trans h6, h5⟩
  rcases hp with hp | hp
  · obtain ⟨dl, hp⟩ := Option.isSome_iff_exists.1 hp
    have hid := reach_id h
    have hf : s.flag t = true := by
      rcases hid.rem t hr (by cases hp' : s.pc (.disp t) <;> simp [hp', Pc.wait] at hp <;> rfl) with h5 | ⟨z, h5⟩
      · exact h5
      · exact absurd h5 (hn z)
    obtain ⟨s2, o2, e1, e2, e3, e4, e5, e6⟩ := go_idle hi ha hp (.inr ⟨hf, fun dl hd => by
      rcases hid.sg t dl hd hf with h5 | ⟨z, h5⟩
      · exact h5
      · exact absurd h5 (hg z)⟩) nl
    exact fin s2 _ e1 e2.act e3 (e5 hr) (by simp [e6 x hx])
  · obtain ⟨s1, o1, e1, e2, e3, e4, e5, e6⟩ := go_top hi ha hp nl
    exact fin s1 _ e1 e2.act e3 (e5 hr) (by simp [e6 x hx])

/-- Clock readings are never in the future. -/
theorem clock_step {e : Event} {n : Nat} (h : ID s) (hi : Inv s) (hs : step s e = some (s', o)) (hn : (∃ x, .expired x n ∈ o) ∨ ∃ t, .looked t n ∈ o) :
    n ≤ s.now := by
  cases e with
  | run u =>
    simp only [step] at hs
    split at hs
    · rename_i x ha
      have hlv : ∀ {k : State → State × List Obs}, leave s u x k = some (s', o) → (∀ s1, (k s1).2 = [] ∨ ∃ z, (k s1).2 = [.ready u z]) → n ≤ s.now := by
        intro k hl hk
        rcases leave_some hl with ⟨_, _, rfl⟩ | ⟨y, l, _, _, rfl⟩
        · simp at hn
        · rcases hk { s with rq := upd s.rq u l, active := upd s.active u (some y), saved := set (set s.saved x true) y false } with h1 | ⟨z, h1⟩ <;>
            rw [h1] at hn <;> split at hn <;> simp at hn
      unfold run at hs
      split at hs <;> rename_i hp
      case h_11 m =>
        have hx : x = .disp u := by
          have hh := hi.a.actHome _ _ ha
          cases x with
          | disp v => simp at hh; rw [hh]
          | main v => have := (hi.a.kMain v).1; rw [hp] at this; simp [Pc.disp] at this
          | work v => have := (hi.a.kWork v).1; rw [hp] at this; simp [Pc.disp] at this
        subst hx
        have hc := h.clk u _ hp
        split at hs
        · simp only [Option.some.injEq, Prod.mk.injEq] at hs
          obtain ⟨-, rfl⟩ := hs
          simp at hn; omega
        · split at hs
          · split at hs
            · simp only [schedule, Option.some.injEq, Prod.mk.injEq] at hs
              obtain ⟨-, rfl⟩ := hs
              simp at hn; omega
            · simp only [Option.some.injEq, Prod.mk.injEq] at hs
              obtain ⟨-, rfl⟩ := hs
              simp at hn
          · simp only [Option.some.injEq, Prod.mk.injEq] at hs
            obtain ⟨-, rfl⟩ := hs
            simp at hn; omega
      case h_1 => exact hlv hs fun s1 => .inr ⟨_, rfl⟩
      case h_2 => exact hlv hs fun s1 => .inl rfl
      case h_3 => exact hlv hs fun s1 => .inl rfl
      case h_4 => exact hlv hs fun s1 => .inl rfl
      case h_12 =>
        split at hs
        · simp only [Option.some.injEq, Prod.mk.injEq] at hs
          obtain ⟨-, rfl⟩ := hs
          simp at hn
        · exact hlv hs fun s1 => .inr ⟨_, rfl⟩
      all_goals exfalso
      case h_9 =>
        simp only [scheduleAll_eq, Option.some.injEq, Prod.mk.injEq] at hs
        obtain ⟨-, rfl⟩ := hs
        simp at hn
      case h_8 =>
        simp only at hs
        split at hs
        · split at hs <;> simp only [release, Option.some.injEq, Prod.mk.injEq] at hs <;> obtain ⟨-, rfl⟩ := hs
          · simp at hn
          · simp only [List.mem_flatMap] at hn
            rcases hn with ⟨z, w, _, hn⟩ | ⟨z, w, _, hn⟩ <;> split at hn <;> simp at hn
        · simp only [release, Option.some.injEq, Prod.mk.injEq] at hs
          obtain ⟨-, rfl⟩ := hs
          simp only [List.mem_flatMap] at hn
          rcases hn with ⟨z, w, _, hn⟩ | ⟨z, w, _, hn⟩ <;> split at hn <;> simp at hn
      case h_15 =>
        simp only [release, switch, Option.some.injEq, Prod.mk.injEq] at hs
        obtain ⟨-, rfl⟩ := hs
        simp only [List.mem_append, List.mem_cons, List.mem_flatMap] at hn
        rcases hn with ⟨z, ⟨w, _, hn⟩ | hn | hn⟩ | ⟨z, ⟨w, _, hn⟩ | hn | hn⟩
        all_goals first | (simp at hn; done) | (split at hn <;> simp at hn; done) | (by_cases hc : s.saved (.main u) = true <;> simp [hc] at hn)
      all_goals
        (try simp only at hs) <;> (repeat' split at hs) <;> simp at hs <;> (try obtain ⟨-, rfl⟩ := hs) <;> (try split at hn) <;> first | (simp at hn; done) | skip
    · simp at hs
  | act u a =>
    simp only [step] at hs
    split at hs
    · rename_i x ha
      split at hs
      · exfalso
        cases a <;> simp only [act] at hs <;> (repeat' split at hs) <;> simp [schedule, switch] at hs <;> obtain ⟨-, rfl⟩ := hs <;> simp at hn
      · simp at hs
    · simp at hs
  | thread u =>
    simp only [step] at hs
    split at hs
    · simp only [Option.some.injEq, Prod.mk.injEq] at hs
      obtain ⟨-, rfl⟩ := hs
      simp at hn
    · simp at hs
  | spurious u =>
    simp only [step] at hs
    split at hs
    · simp only [Option.some.injEq, Prod.mk.injEq] at hs
      obtain ⟨-, rfl⟩ := hs
      simp at hn
    · simp at hs
  | tick n =>
    simp only [step, Option.some.injEq, Prod.mk.injEq] at hs
    obtain ⟨-, rfl⟩ := hs
    simp at hn

theorem now_step {e : Event} (hs : step s e = some (s', o)) : s.now ≤ s'.now := by
  cases e with
  | run u =>
    simp only [step] at hs
    split at hs
    · rename_i x ha
      have hlv : ∀ {k : State → State × List Obs}, leave s u x k = some (s', o) → (∀ s1, (k s1).1.now = s1.now) → s.now ≤ s'.now := by
        intro k hl hk
        rcases leave_some hl with ⟨_, rfl, _⟩ | ⟨y, l, _, rfl, _⟩
        · exact Nat.le_refl _
        · rw [hk]; exact Nat.le_refl _
      unfold run at hs
      split at hs <;> rename_i hp
      case h_1 => exact hlv hs fun s1 => rfl
      case h_2 => exact hlv hs fun s1 => rfl
      case h_3 => exact hlv hs fun s1 => rfl
      case h_4 => exact hlv hs fun s1 => rfl
      case h_12 =>
        split at hs
        · simp only [Option.some.injEq, Prod.mk.injEq] at hs
          obtain ⟨rfl, -⟩ := hs
          exact Nat.le_refl _
        · exact hlv hs fun s1 => rfl
      all_goals
        (try simp only [scheduleAll_eq, release, switch, schedule] at hs) <;> (repeat' split at hs) <;> simp at hs <;> obtain ⟨rfl, -⟩ := hs <;> exact Nat.le_refl _
    · simp at hs
  | act u a =>
    simp only [step] at hs
    split at hs
    · rename_i x ha
      split at hs
      · cases a <;> simp only [act] at hs <;> (repeat' split at hs) <;> simp [schedule, switch] at hs <;> obtain ⟨rfl, -⟩ := hs <;> exact Nat.le_refl _
      · simp at hs
    · simp at hs
  | thread u =>
    simp only [step] at hs
    split at hs
    · simp only [Option.some.injEq, Prod.mk.injEq] at hs
      obtain ⟨rfl, -⟩ := hs
      exact Nat.le_refl _
    · simp at hs
  | spurious u =>
    simp only [step] at hs
    split at hs
    · simp only [Option.some.injEq, Prod.mk.injEq] at hs
      obtain ⟨rfl, -⟩ := hs
      exact Nat.le_refl _
    · simp at hs
  | tick n =>
    simp only [step, Option.some.injEq, Prod.mk.injEq] at hs
    obtain ⟨rfl, -⟩ := hs
    exact Nat.le_add_right _ _

theorem clock_le (h : Reach step init s tr) : ∀ n, ((∃ x, .expired x n ∈ tr) ∨ ∃ t, .looked t n ∈ tr) → n ≤ s.now := by
  refine Reach.inv (fun s tr => ∀ n, ((∃ x, .expired x n ∈ tr) ∨ ∃ t, .looked t n ∈ tr) → n ≤ s.now) (by simp) ?_ h
  intro s tr e s' o hr ih hs n hn
  have h1 := now_step hs
  have h2 := clock_step (n := n) (reach_id hr) (reach_inv hr) hs
  simp only [List.mem_append] at hn
  rcases hn with ⟨x, hn | hn⟩ | ⟨t, hn | hn⟩
  · exact Nat.le_trans (ih n (.inl ⟨x, hn⟩)) h1
  · exact Nat.le_trans (h2 (.inl ⟨x, hn⟩)) h1
  · exact Nat.le_trans (ih n (.inr ⟨t, hn⟩)) h1
  · exact Nat.le_trans (h2 (.inr ⟨t, hn⟩)) h1

end Verif.Sch
