import Verif.SchedSpec

/-! # The scheduler satisfies its specification -/

namespace Verif.Sch

variable {s s' : State} {t : Tid} {x y : Cx} {o : List Obs} {sp : Spec}

/-- Nothing is left to release when the dispatcher has stopped. -/
def TE (s : State) : Prop := ∀ t, s.pc (.disp t) = .dead → s.tq t = []

theorem te_step {e : Event} (h : Inv s) (hT : TE s) (hs : step s e = some (s', o)) : TE s' := by
  have hkw : ∀ n, s.pc (.disp n) = .dead → s.wq n = [] := fun n hn => (h.a.last n (.inr hn)).1
  have hact : ∀ u x, s.active u = some x → s.pc (.disp u) = .dead → s.pc x = .ending := by
    intro u x hx hd
    have h1 := h.a.dispD u
    have h2 := h.a.none u
    have h3 := h.a.busyAct (.main u)
    simp only [State.home, homeOf_main] at h3
    rcases h1.1 hd with e | e
    · rw [e] at h3; have := h3 rfl; rw [hx] at this; cases this; exact e
    · rw [h2.2 (.inr e)] at hx; cases hx
  have hrel : ∀ (z : Cx) (p : Pc), p ≠ .dead → ∀ u, set s.pc z p (.disp u) = .dead → s.tq u = [] := by
    intro z p hp u hu
    refine hT u ?_
    by_cases e : Cx.disp u = z
    · subst e; simp at hu; exact absurd hu hp
    · simpa [e] using hu
  have hrelC : ∀ (z : Cx) (p : Pc) (v : Tid), p ≠ .dead → ∀ u, set s.pc z p (.disp u) = .dead → upd s.tq v [] u = [] := by
    intro z p v hp u hu
    simp only [upd_apply]; split
    · rfl
    · exact hrel z p hp u hu
  have hlv : ∀ {t : Tid} {x : Cx} {k : State → State × List Obs}, (∀ z, z = s.pc x → z = .leaving ∨ z.busy) → leave s t x k = some (s', o) →
      (∀ s1, s1.pc = s.pc → s1.tq = s.tq → ∃ p, (k s1).1.pc = set s.pc x p ∧ (k s1).1.tq = s.tq ∧ (p = .dead → s.pc x = .leaving)) → TE s' := by
    intro t x k _ hs hk u hu
    rcases leave_some hs with ⟨_, rfl, _⟩ | ⟨y, l, _, rfl, _⟩
    · exact hT u hu
    · obtain ⟨p, e1, e2, e3⟩ := hk { s with rq := upd s.rq t l, active := upd s.active t (some y), saved := set (set s.saved x true) y false } rfl rfl
      rw [e1] at hu
      rw [e2]
      by_cases hp : p = .dead
      · refine hT u ?_
        by_cases e : Cx.disp u = x
        · have := h.a.kDisp u; rw [e, e3 hp] at this; simp [Pc.disp] at this
        · simpa [e] using hu
      · exact hrel x p hp u hu
  cases e with
  | thread u =>
    simp only [step] at hs
    split at hs
    · simp only [Option.some.injEq, Prod.mk.injEq] at hs
      obtain ⟨rfl, rfl⟩ := hs
      intro v hv
      refine hT v ?_
      by_cases e : v = u
      · subst e; simp at hv
      · simpa [e] using hv
    · simp at hs
  | act u a =>
    simp only [step] at hs
    split at hs
    · rename_i x ha
      split at hs
      · rename_i hu
        cases a with
        | yield =>
          simp only [act, Option.some.injEq, Prod.mk.injEq] at hs
          obtain ⟨rfl, rfl⟩ := hs
          exact hrel _ _ (by simp)
        | spawn n d =>
          simp only [act] at hs
          split at hs
          · cases d <;>
            · simp only [schedule, switch, if_true, if_false, Bool.false_eq_true, Option.some.injEq, Prod.mk.injEq] at hs
              obtain ⟨rfl, rfl⟩ := hs
              exact hrel (.work n) .user (by simp)
          · simp at hs
        | wait dl =>
          cases dl <;>
          · simp only [act, Option.some.injEq, Prod.mk.injEq] at hs
            obtain ⟨rfl, rfl⟩ := hs
            exact hrel _ _ (by simp)
        | sleep d =>
          simp only [act, Option.some.injEq, Prod.mk.injEq] at hs
          obtain ⟨rfl, rfl⟩ := hs
          exact hrel _ _ (by simp)
        | wake y ep =>
          simp only [act] at hs
          split at hs
          · split at hs
            · split at hs <;> simp only [schedule, Option.some.injEq, Prod.mk.injEq] at hs <;> obtain ⟨rfl, rfl⟩ := hs
              · exact hrel _ _ (by simp)
              · intro v hv
                by_cases e : Cx.disp v = x
                · subst e; simp at hv
                · simp only [set_other _ _ e] at hv; exact hrel _ _ (by simp) v hv
            · simp only [Option.some.injEq, Prod.mk.injEq] at hs
              obtain ⟨rfl, rfl⟩ := hs
              exact hT
          · simp at hs
        | finish =>
          cases x with
          | work n =>
            simp only [act, Option.some.injEq, Prod.mk.injEq] at hs
            obtain ⟨rfl, rfl⟩ := hs
            intro v hv
            simp only [set_apply, reduceCtorEq, if_false] at hv
            have : v ≠ u := by
              rintro rfl
              have := hact v _ ha hv
              rw [hu] at this; cases this
            simp only [upd_apply, this, if_false]
            exact hT v hv
          | _ => simp [act] at hs
        | setAlgo =>
          simp only [act, Option.some.injEq, Prod.mk.injEq] at hs
          obtain ⟨rfl, rfl⟩ := hs
          exact hT
        | exit =>
          simp only [act] at hs
          split at hs
          · simp only [Option.some.injEq, Prod.mk.injEq] at hs
            obtain ⟨rfl, rfl⟩ := hs
            exact hrel _ _ (by simp)
          · simp at hs
      · simp at hs
    · simp at hs
  | run u =>
    simp only [step] at hs
    split at hs
    · rename_i x ha
      unfold run at hs
      split at hs <;> rename_i hp
      · exact hlv (by simp [hp, Pc.busy]) hs fun s1 e1 e2 => ⟨.user, by simp [schedule, e1], by simp [schedule, e2], by simp⟩
      · exact hlv (by simp [hp, Pc.busy]) hs fun s1 e1 e2 => ⟨.blocked _, by simp [e1]; rfl, by simp [e2], by simp⟩
      · exact hlv (by simp [hp, Pc.busy]) hs fun s1 e1 e2 => ⟨.dead, by simp [e1], by simp [e2], fun _ => hp⟩
      · exact hlv (by simp [hp, Pc.busy]) hs fun s1 e1 e2 => ⟨.closed, by simp [e1], by simp [e2], by simp⟩
      · simp only at hs
        split at hs <;> simp only [Option.some.injEq, Prod.mk.injEq] at hs <;> obtain ⟨rfl, rfl⟩ := hs <;> exact hrel _ _ (by simp)
      · split at hs <;> simp only [Option.some.injEq, Prod.mk.injEq] at hs <;> obtain ⟨rfl, rfl⟩ := hs <;> exact hrel _ _ (by simp)
      · split at hs <;> simp only [Option.some.injEq, Prod.mk.injEq] at hs <;> obtain ⟨rfl, rfl⟩ := hs <;> exact hrel _ _ (by simp)
      · simp only at hs
        split at hs
        · split at hs <;> simp only [release, Option.some.injEq, Prod.mk.injEq] at hs <;> obtain ⟨rfl, rfl⟩ := hs
          · exact hrel _ _ (by simp)
          · exact hrelC _ _ _ (by simp)
        · simp only [release, Option.some.injEq, Prod.mk.injEq] at hs
          obtain ⟨rfl, rfl⟩ := hs
          exact hrelC _ _ _ (by simp)
      · simp only [scheduleAll_eq, Option.some.injEq, Prod.mk.injEq] at hs
        obtain ⟨rfl, rfl⟩ := hs
        exact hrel _ _ (by simp)
      · simp only [Option.some.injEq, Prod.mk.injEq] at hs
        obtain ⟨rfl, rfl⟩ := hs
        exact hrel _ _ (by simp)
      · split at hs
        · simp only [Option.some.injEq, Prod.mk.injEq] at hs
          obtain ⟨rfl, rfl⟩ := hs
          exact hrel _ _ (by simp)
        · split at hs
          · split at hs <;> simp only [schedule, Option.some.injEq, Prod.mk.injEq] at hs <;> obtain ⟨rfl, rfl⟩ := hs
            · exact hrel _ _ (by simp)
            · exact hT
          · simp only [Option.some.injEq, Prod.mk.injEq] at hs
            obtain ⟨rfl, rfl⟩ := hs
            exact hrel _ _ (by simp)
      · split at hs
        · simp only [Option.some.injEq, Prod.mk.injEq] at hs
          obtain ⟨rfl, rfl⟩ := hs
          exact hrel _ _ (by simp)
        · exact hlv (by simp [hp, Pc.busy]) hs fun s1 e1 e2 => ⟨.top, by simp [schedule, e1], by simp [schedule, e2], by simp⟩
      · split at hs <;> simp only [Option.some.injEq, Prod.mk.injEq] at hs <;> obtain ⟨rfl, rfl⟩ := hs <;> exact hrel _ _ (by simp)
      · simp only at hs
        split at hs
        · split at hs <;> simp only [Option.some.injEq, Prod.mk.injEq] at hs <;> obtain ⟨rfl, rfl⟩ := hs
          · exact hrel _ _ (by simp)
          · exact hT
        · simp at hs
      · simp only [release, switch, Option.some.injEq, Prod.mk.injEq] at hs
        obtain ⟨rfl, rfl⟩ := hs
        intro v hv
        simp only [upd_apply]
        split
        · rfl
        · rename_i hvu
          refine hT v ?_
          have hx : x ≠ .disp v := by
            rintro rfl
            have := h.a.actHome _ _ ha
            simp at this; exact hvu this
          simpa [set_apply, Ne.symm hx] using hv
      · simp only [Option.some.injEq, Prod.mk.injEq] at hs
        obtain ⟨rfl, rfl⟩ := hs
        intro v hv
        refine hT v ?_
        have hx : x ≠ .disp v := by
          rintro rfl
          have := h.a.kDisp v
          rw [hp] at this; simp [Pc.disp] at this
        simpa [set_apply, Ne.symm hx] using hv
      · simp at hs
    · simp at hs
  | spurious u =>
    simp only [step] at hs
    split at hs
    · simp only [Option.some.injEq, Prod.mk.injEq] at hs
      obtain ⟨rfl, rfl⟩ := hs
      exact hT
    · simp at hs
  | tick n =>
    simp only [step, Option.some.injEq, Prod.mk.injEq] at hs
    obtain ⟨rfl, rfl⟩ := hs
    exact hT

/-- `Sim`, except for what is said about the state of `x`. -/
structure SimX (x : Cx) (s : State) (sp : Spec) : Prop where
  st  : ∀ z, z ≠ x → sp.st z = view s z
  on  : ∀ x, s.pc x ≠ .unborn → sp.on x = s.home x
  q   : ∀ t, sp.q t = s.rq t
  cur : ∀ t, sp.cur t = s.active t

theorem Sim.toX (h : Sim s sp) (x : Cx) : SimX x s sp := ⟨fun z _ => h.st z, h.on, h.q, h.cur⟩

theorem SimX.sim (h : SimX x s sp) (h1 : sp.st x = view s x) : Sim s sp := by
  refine ⟨fun z => ?_, h.on, h.q, h.cur⟩
  by_cases e : z = x
  · rw [e, h1]
  · exact h.st z e

/-- Switching to the next ready fiber. -/
theorem sim_leave (h : Inv s) (hsim : Sim s sp) (ha : s.active t = some x) {l : List Cx} (hr : s.rq t = y :: l) {p : Pc}
    (hp : s.pc x ≠ .unborn) :
    sp.ok (.run t y) ∧ 
      SimX x { s with rq := upd s.rq t l, active := upd s.active t (some y), saved := set (set s.saved x true) y false, pc := set s.pc x p } (sp.after (.run t y)) := by
  obtain ⟨s1, s2, s3, s4⟩ := hsim
  obtain ⟨n1, n2, n3, n4⟩ := next_ready h ha hr
  have hyu : s.pc y ≠ .unborn := by rcases n2 with e | e <;> simp [e]
  have hN : y ∉ l := by have := h.b.rqN t; rw [hr] at this; exact (List.nodup_cons.1 this).1
  have hvy : view s y = .queued := by
    simp only [State.home] at n1
    rcases n2 with e | e <;> simp [view, e, n1, hr]
  refine ⟨⟨l, by rw [s3, hr], by rw [s1, hvy], by rw [s2 y hyu, n1], by rw [s4, ha]; simp⟩, ?_, ?_, ?_, ?_⟩
  · intro z hzx
    simp only [Spec.after]
    by_cases hz : z = y
    · subst hz
      simp only [State.home] at n1
      rcases n2 with e | e <;> simp [view, e, n1, n3, hN]
    · simp only [set_apply, hz, if_false, s1]
      refine view_congr (by simp [hzx]) rfl Iff.rfl rfl Iff.rfl ?_ ?_
      · simp only [upd_apply]; split
        · rename_i e; rw [e, hr]; simp [hz]
        · rfl
      · simp only [upd_apply]; split
        · rename_i e; rw [e, ha]; simp [Ne.symm hz, Ne.symm hzx]
        · rfl
  · intro z hz
    refine s2 z ?_
    by_cases hzx : z = x
    · subst hzx; exact hp
    · simpa [hzx] using hz
  · intro u; simp only [Spec.after, upd_apply, s3]; split
    · rename_i e; rw [hr]; rfl
    · rfl
  · intro u; simp only [Spec.after, upd_apply, s4]

/-- A fiber of the thread that is not ready becomes ready. -/
theorem sim_schedule (hsim : SimX x s sp) (hh : s.home x = t) (hp : s.pc x = .user ∨ s.pc x = .top) (hq : x ∉ s.rq t)
    (hst : sp.st x = .fresh ∨ sp.st x = .woken ∨ sp.st x = .live ∧ sp.cur t ≠ some x) :
    sp.ok (.ready t x) ∧ Sim (schedule s t x).1 (sp.after (.ready t x)) := by
  obtain ⟨s1, s2, s3, s4⟩ := hsim
  have hxu : s.pc x ≠ .unborn := by rcases hp with e | e <;> simp [e]
  refine ⟨⟨by rw [s2 x hxu, hh], by rw [s3]; exact hq, hst⟩, ?_, s2, ?_, s4⟩
  · intro z
    simp only [Spec.after, schedule]
    by_cases hz : z = x
    · subst hz
      simp only [State.home] at hh
      rcases hp with e | e <;> simp [view, e, hh]
    · simp only [set_apply, hz, if_false, s1 z hz]
      refine view_congr rfl rfl ?_ rfl Iff.rfl ?_ Iff.rfl
      · simp only [upd_apply]; split
        · rename_i e; rw [e, List.mem_erase_of_ne hz]
        · rfl
      · simp only [upd_apply]; split
        · rename_i e; simp [hz, e]
        · rfl
  · intro u; simp only [Spec.after, schedule, upd_apply, s3]

/-- Program points that a user cannot distinguish. -/
@[grind] def Pc.plain : Pc → Bool
  | .user | .yielding | .push _ | .notify _ | .signal _ | .top | .collect | .clock | .timers _ | .pick | .idle _ | .cnd _ | .last => true
  | _ => false

@[grind] def Pc.waits : Pc → Bool
  | .parking _ | .blocked _ => true
  | _ => false

theorem view_plain (h : (s.pc x).plain) :
    view s x = if x ∈ s.rq (s.home x) then .queued else if s.active (s.home x) = some x then .live else .woken := by
  cases hp : s.pc x <;> simp [hp, Pc.plain] at h <;> simp [view, hp]

theorem view_waiting {d : Nat} (h : view s x = .waiting (some d)) : (s.pc x).waits ∧ x ∈ s.sl (s.home x) ∧ s.tp x = d := by
  cases hp : s.pc x <;> simp only [view, hp] at h
  case parking => split at h <;> simp_all [Pc.waits]
  case blocked => split at h <;> simp_all [Pc.waits]
  case dead =>
    cases x <;> simp only [reduceCtorEq] at h
    split at h <;> cases h
  all_goals first | (simp at h; done) | (split at h; · simp at h
                                         · split at h <;> simp at h)

theorem sim_cong (hsim : Sim s sp) (h1 : s'.hm = s.hm) (h2 : s'.rq = s.rq) (h3 : s'.active = s.active) (h4 : s'.tq = s.tq)
    (h5 : ∀ z, s'.pc z = s.pc z ∨ (s'.pc z).plain ∧ (s.pc z).plain)
    (h6 : ∀ z, (s.pc z).waits → (z ∈ s'.sl (s.home z) ↔ z ∈ s.sl (s.home z)) ∧ s'.tp z = s.tp z) : Sim s' sp := by
  obtain ⟨s1, s2, s3, s4⟩ := hsim
  refine ⟨?_, ?_, ?_, ?_⟩
  · intro z
    rw [s1]
    rcases h5 z with h | h
    · by_cases hw : (s.pc z).waits
      · obtain ⟨e1, e2⟩ := h6 z hw
        exact view_congr h (by simp only [State.home, h1]) e1 e2 (by rw [h4]) (by rw [h2]) (by rw [h3])
      · cases hp : s.pc z <;> rw [hp] at h hw <;> simp [Pc.waits] at hw <;> simp [view, hp, h, h1, h2, h3, h4, State.home]
    · rw [view_plain h.1, view_plain h.2]; simp only [State.home, h1, h2, h3]
  · intro z hz
    rw [s2 z, State.home, State.home, h1]
    rcases h5 z with h | h
    · rwa [← h]
    · intro e; rw [e] at h; simp [Pc.plain] at h
  · intro u; rw [s3, h2]
  · intro u; rw [s4, h3]

theorem mem_foldl_erase {r l : List Cx} (h : x ∉ r) : x ∈ r.foldl List.erase l ↔ x ∈ l := by
  induction r generalizing l with
  | nil => rfl
  | cons y r ih =>
    simp only [List.mem_cons, not_or] at h
    rw [List.foldl_cons, ih h.2, List.mem_erase_of_ne h.1]

theorem replay_released {l : List Cx} (hN : l.Nodup) (hl : ∀ z ∈ l, sp.st z = .done ∧ sp.cur (sp.on z) ≠ some z) :
    Runs sp (l.map .released) ∧
      (l.map Obs.released).foldl Spec.after sp = { sp with st := fun z => if z ∈ l then .released else sp.st z } := by
  induction l generalizing sp with
  | nil => exact ⟨trivial, by simp⟩
  | cons y l ih =>
    rw [List.nodup_cons] at hN
    have h1 := ih (sp := sp.after (.released y)) hN.2 (by
      intro z hz
      have : z ≠ y := by rintro rfl; exact hN.1 hz
      simpa [Spec.after, this] using hl z (by simp [hz]))
    refine ⟨⟨hl y (by simp), h1.1⟩, ?_⟩
    rw [List.map_cons, List.foldl_cons, h1.2]
    simp only [Spec.after, Spec.mk.injEq, and_true]
    funext z
    by_cases hz : z = y <;> simp [hz]

theorem replay_ready {l : List Cx} (hN : l.Nodup) (hl : ∀ z ∈ l, sp.on z = t ∧ z ∉ sp.q t ∧ sp.st z = .woken) :
    Runs sp (l.map (.ready t)) ∧
      (l.map (Obs.ready t)).foldl Spec.after sp = { sp with st := fun z => if z ∈ l then .queued else sp.st z, q := upd sp.q t (sp.q t ++ l) } := by
  induction l generalizing sp with
  | nil => exact ⟨trivial, by simp [upd_self]⟩
  | cons y l ih =>
    rw [List.nodup_cons] at hN
    have h1 := ih (sp := sp.after (.ready t y)) hN.2 (by
      intro z hz
      have : z ≠ y := by rintro rfl; exact hN.1 hz
      simpa [Spec.after, this] using hl z (by simp [hz]))
    have h2 := hl y (by simp)
    refine ⟨⟨⟨h2.1, h2.2.1, .inr (.inl h2.2.2)⟩, h1.1⟩, ?_⟩
    rw [List.map_cons, List.foldl_cons, h1.2]
    simp only [Spec.after, Spec.mk.injEq, and_true, true_and, upd_upd', upd_same, List.append_assoc, List.singleton_append]
    funext z
    by_cases hz : z = y <;> simp [hz]

theorem sim_release (h : Inv s) (hsim : Sim s sp) (ha : s.active t = some (.disp t)) :
    Runs sp (release s t).2 ∧ Sim (release s t).1 ((release s t).2.foldl Spec.after sp) := by
  have hA := h.a
  obtain ⟨s1, s2, s3, s4⟩ := hsim
  have hdead : ∀ z ∈ s.tq t, (∃ n, z = .work n) ∧ s.home z = t ∧ s.pc z = .dead := by
    intro z hz
    obtain ⟨e1, e2, e3⟩ := hA.tq t z hz
    refine ⟨e1, e2, ?_⟩
    rcases e3 with e3 | e3
    · have := hA.busyAct z (by rw [e3]; rfl)
      rw [e2, ha] at this
      obtain ⟨n, rfl⟩ := e1
      cases this
    · exact e3.1
  obtain ⟨r1, r2⟩ := replay_released (sp := sp) (hA.tqN t) (by
    intro z hz
    obtain ⟨⟨n, rfl⟩, e2, e3⟩ := hdead z hz
    refine ⟨?_, ?_⟩
    · rw [s1]; simp only [State.home, homeOf_work] at e2; simp [view, e3, e2, hz]
    · rw [s2 _ (by simp [e3]), e2, s4, ha]; simp)
  rw [release_ub hA ha]
  refine ⟨r1, ?_⟩
  rw [r2]
  refine ⟨?_, s2, s3, s4⟩
  intro z
  simp only [release]
  split
  · rename_i hz
    obtain ⟨⟨n, rfl⟩, e2, e3⟩ := hdead z hz
    simp only [State.home, homeOf_work] at e2
    simp [view, e3, e2]
  · rename_i hz
    rw [s1]
    refine view_congr rfl rfl Iff.rfl rfl ?_ Iff.rfl Iff.rfl
    simp only [upd_apply]; split
    · rename_i e; rw [e]; simp [hz]
    · rfl

theorem sim_relabel (hsim : Sim s sp) {p : Pc} (h1 : (s.pc x).plain) (h2 : p.plain) {fl sg : Tid → Bool} {nw : Nat} {rr : Tid → List Cx} :
    Sim { s with pc := set s.pc x p, flag := fl, sig := sg, now := nw, rr := rr } sp := by
  refine sim_cong hsim rfl rfl rfl rfl ?_ (fun z _ => ⟨Iff.rfl, rfl⟩)
  intro z
  by_cases e : z = x
  · subst e; exact .inr ⟨by simpa using h2, h1⟩
  · exact .inl (by simp [e])

theorem sim_run (h : Inv s) (hD : ID s) (hT : TE s) (hsim : Sim s sp) (ha : s.active t = some x) (hs : run s t x = some (s', o)) :
    Runs sp o ∧ Sim s' (o.foldl Spec.after sp) := by
  have hA := h.a
  have hB := h.b
  have hC := h.c
  have hh := hA.actHome _ _ ha
  have hxq : x ∉ s.rq t := fun hx => (hB.rq t x hx).2.1 ha
  have hd : ∀ p, s.pc x = p → p.disp → x = .disp t := by
    intro p hp hpd
    cases x with
    | disp u => simp at hh; rw [hh]
    | main u => have := hA.kMain u; simp_all
    | work n => have := hA.kWork n; simp_all
  have hm : ∀ p, s.pc x = p → p.shut → x = .main t := by
    intro p hp hpd
    cases x with
    | main u => simp at hh; rw [hh]
    | disp u => have := hA.kDisp u; rw [hp] at this; cases p <;> simp_all [Pc.disp, Pc.shut]
    | work n => have := hA.kWork n; simp_all
  have hne : ∀ p, s.pc x = p → p.disp = false → p ≠ .ending → s.rq t ≠ [] := by
    intro p hp hpd hpe
    refine rq_ne_nil h ha ?_ (by rw [hp]; exact hpe)
    rintro rfl
    have := hA.kDisp t
    have := hA.actPc _ _ ha
    cases p <;> simp_all [Pc.disp, Pc.busy]
  -- back into the queue after the switch
  have hreq : ∀ {y : Cx} {l : List Cx} {p : Pc}, s.rq t = y :: l → (s.pc x).plain → p = .user ∨ p = .top →
      Runs sp (.run t y :: ([] ++ [.ready t x])) ∧
        Sim (schedule { s with rq := upd s.rq t l, active := upd s.active t (some y), saved := set (set s.saved x true) y false, pc := set s.pc x p } t x).1
          ((Obs.run t y :: ([] ++ [Obs.ready t x])).foldl Spec.after sp) := by
    intro y l p h0 hpl hpp
    obtain ⟨n1, n2, n3, n4⟩ := next_ready h ha h0
    have h1 := sim_leave h hsim ha h0 (p := p) (by intro e; simp [e, Pc.plain] at hpl)
    have h2 := sim_schedule h1.2 (x := x) (t := t) hh (by simpa using hpp) (by
      simp only [upd_same]; intro hx; exact hxq (by simp [h0, hx])) (.inr (.inr ⟨by
        simp only [Spec.after, set_other _ _ (Ne.symm n3), hsim.st]
        rw [view_plain hpl, hh]; simp [hxq, ha], by simp [Spec.after, n3]⟩))
    exact ⟨⟨h1.1, h2.1, trivial⟩, h2.2⟩
  unfold run at hs
  split at hs <;> rename_i hp
  · -- yielding
    rcases leave_some hs with ⟨h0, _⟩ | ⟨y, l, h0, rfl, rfl⟩
    · exact absurd h0 (hne _ hp rfl (by simp))
    · obtain ⟨n1, n2, n3, n4⟩ := next_ready h ha h0
      simp only [n4, if_true]
      exact hreq h0 (by simp [hp, Pc.plain]) (.inl rfl)
  · -- parking
    rename_i ep
    rcases leave_some hs with ⟨h0, _⟩ | ⟨y, l, h0, rfl, rfl⟩
    · exact absurd h0 (hne _ hp rfl (by simp))
    · obtain ⟨n1, n2, n3, n4⟩ := next_ready h ha h0
      simp only [n4, if_true]
      have := sim_leave h hsim ha h0 (p := .blocked ep) (by simp [hp])
      refine ⟨⟨this.1, trivial⟩, this.2.sim ?_⟩
      simp only [Spec.after, set_other _ _ (Ne.symm n3), hsim.st]; simp [view, hp]
  · -- leaving
    rcases leave_some hs with ⟨h0, _⟩ | ⟨y, l, h0, rfl, rfl⟩
    · exact absurd h0 (hne _ hp rfl (by simp))
    · obtain ⟨n1, n2, n3, n4⟩ := next_ready h ha h0
      simp only [n4, if_true]
      have htq := hA.leav x hp
      rw [hh] at htq
      obtain ⟨n, rfl⟩ := (hA.tq _ _ htq).1
      have := sim_leave h hsim ha h0 (p := .dead) (by simp [hp])
      refine ⟨⟨this.1, trivial⟩, this.2.sim ?_⟩
      simp only [Spec.after, set_other _ _ (Ne.symm n3), hsim.st]; simp only [State.home, homeOf_work] at hh; simp [view, hp, hh, htq]
  · -- closing
    rcases leave_some hs with ⟨h0, _⟩ | ⟨y, l, h0, rfl, rfl⟩
    · exact absurd h0 (hne _ hp rfl (by simp))
    · obtain ⟨n1, n2, n3, n4⟩ := next_ready h ha h0
      simp only [n4, if_true]
      have := sim_leave h hsim ha h0 (p := .closed) (by simp [hp])
      refine ⟨⟨this.1, trivial⟩, this.2.sim ?_⟩
      simp only [Spec.after, set_other _ _ (Ne.symm n3), hsim.st]; simp [view, hp]
  · -- push
    rename_i y
    simp only [not_gone h (hB.ps x y hp).1] at hs
    split at hs
    · contradiction
    · simp only [Option.some.injEq, Prod.mk.injEq] at hs
      obtain ⟨rfl, rfl⟩ := hs
      have key := sim_relabel hsim (x := x) (p := .notify (s.home y)) (by simp [hp, Pc.plain]) rfl (fl := s.flag) (sg := s.sig) (nw := s.now) (rr := upd s.rr (s.home y) (s.rr (s.home y) ++ [y]))
      split
      · rename_i hg hsd
        refine ⟨⟨?_, trivial⟩, key⟩
        have h1 := (hA.sd _).1 hsd
        have h2 := (hA.gone (s.home y)).2
        have h3 := hA.kMain (s.home y)
        change sp.st (.main (s.home y)) = .exiting
        rw [hsim.st]
        have hdd : s.pc (.main (s.home y)) ≠ .dead := by
          intro e; have := h2 e; rw [not_gone h (hB.ps x y hp).1] at this; simp at this
        rcases h1 with h1 | h1
        · unfold view
          generalize s.pc (.main (s.home y)) = p at *
          cases p <;> simp_all [Pc.shut]
        · exact absurd h1 hdd
      · exact ⟨trivial, key⟩
  · -- notify
    split at hs <;> simp only [Option.some.injEq, Prod.mk.injEq] at hs <;> obtain ⟨rfl, rfl⟩ := hs
    · refine ⟨⟨?_, trivial⟩, sim_relabel hsim (by simp [hp, Pc.plain]) rfl⟩
      rename_i hg
      change sp.st (.main _) = .ended
      rw [hsim.st]; simp [view, (hA.gone _).1 hg]
    · exact ⟨trivial, sim_relabel hsim (by simp [hp, Pc.plain]) rfl⟩
  · -- signal
    split at hs <;> simp only [Option.some.injEq, Prod.mk.injEq] at hs <;> obtain ⟨rfl, rfl⟩ := hs
    · refine ⟨⟨?_, trivial⟩, sim_relabel hsim (by simp [hp, Pc.plain]) rfl⟩
      rename_i hg
      change sp.st (.main _) = .ended
      rw [hsim.st]; simp [view, (hA.gone _).1 hg]
    · exact ⟨trivial, sim_relabel hsim (by simp [hp, Pc.plain]) rfl⟩
  · -- top
    have hx := hd _ hp rfl; subst hx
    have hrel := sim_release h hsim ha
    have key : ∀ fl, Sim { s with flag := fl, tq := upd s.tq t [], pc := set s.pc (.disp t) .collect } ((release s t).2.foldl Spec.after sp) := by
      intro fl
      exact sim_relabel hrel.2 (x := .disp t) (p := .collect) (by simp [release, hp, Pc.plain]) rfl (fl := fl) (sg := s.sig) (nw := s.now) (rr := s.rr)
    split at hs
    · rename_i hsd
      split at hs
      · rename_i hw
        simp only [Option.some.injEq, Prod.mk.injEq] at hs
        obtain ⟨rfl, rfl⟩ := hs
        exact ⟨trivial, sim_relabel hsim (by simp [hp, Pc.plain]) rfl⟩
      · simp only [release, Option.some.injEq, Prod.mk.injEq] at hs
        obtain ⟨rfl, rfl⟩ := hs
        exact ⟨hrel.1, key _⟩
    · simp only [release, Option.some.injEq, Prod.mk.injEq] at hs
      obtain ⟨rfl, rfl⟩ := hs
      exact ⟨hrel.1, key _⟩
  · -- collect
    have hx := hd _ hp rfl; subst hx
    simp only [scheduleAll_eq, Option.some.injEq, Prod.mk.injEq] at hs
    obtain ⟨rfl, rfl⟩ := hs
    obtain ⟨r1, r2⟩ := replay_ready (sp := sp) (t := t) (hB.rrN t) (by
      intro z hz
      obtain ⟨e1, e2, e3, e4⟩ := hB.rr t z hz
      refine ⟨by rw [hsim.on z (by simp [e3]), e1], by rw [hsim.q]; exact e4, ?_⟩
      rw [hsim.st, view_plain (by simp [e3, Pc.plain]), e1]
      simp [e2, e4])
    refine ⟨r1, ?_⟩
    rw [r2]
    refine sim_relabel (s := { s with rr := upd s.rr t [], sl := upd s.sl t ((s.rr t).foldl List.erase (s.sl t)), rq := upd s.rq t (s.rq t ++ s.rr t) }) (x := .disp t) (p := .clock) ?_ (by simp [hp, Pc.plain]) rfl (fl := s.flag) (sg := s.sig) (nw := s.now) (rr := upd s.rr t [])
    obtain ⟨s1, s2, s3, s4⟩ := hsim
    refine ⟨?_, s2, ?_, s4⟩
    · intro z
      simp only
      split
      · rename_i hz
        obtain ⟨e1, e2, e3, e4⟩ := hB.rr t z hz
        rw [view_plain (by simp [e3, Pc.plain])]
        simp only [State.home] at e1
        simp [e1, hz]
      · rename_i hz
        rw [s1]
        refine view_congr rfl rfl ?_ rfl Iff.rfl ?_ Iff.rfl
        · simp only [upd_apply]; split
          · rename_i e; rw [e, mem_foldl_erase hz]
          · rfl
        · simp only [upd_apply]; split
          · rename_i e; rw [e]; simp [hz]
          · rfl
    · intro u; simp only [upd_apply, s3]
  · -- clock
    have hx := hd _ hp rfl; subst hx
    simp only [Option.some.injEq, Prod.mk.injEq] at hs
    obtain ⟨rfl, rfl⟩ := hs
    exact ⟨trivial, sim_relabel hsim (by simp [hp, Pc.plain]) rfl⟩
  · -- timers
    rename_i n
    have hx := hd _ hp rfl; subst hx
    have key : (∀ z ∈ s.sl t, n < s.tp z) →
        Runs sp [.looked t n] ∧ Sim { s with pc := set s.pc (.disp t) .pick } ([Obs.looked t n].foldl Spec.after sp) := by
      intro hn
      refine ⟨⟨?_, trivial⟩, sim_relabel hsim (by simp [hp, Pc.plain]) rfl⟩
      intro z d hz hw
      rw [hsim.st] at hw
      have hzu : s.pc z ≠ .unborn := by intro e; simp [view, e] at hw
      rw [hsim.on z hzu] at hz
      have hzs := (view_waiting hw).2
      rw [hz] at hzs
      rw [← hzs.2]
      exact hn z hzs.1
    split at hs
    · rename_i h0
      simp only [Option.some.injEq, Prod.mk.injEq] at hs
      obtain ⟨rfl, rfl⟩ := hs
      exact key (by simp [h0])
    · rename_i y l hl
      have hsort := hD.slS t
      rw [hl, List.pairwise_cons] at hsort
      split at hs
      · rename_i hle
        have hy := hC.slH t y (by simp [hl])
        split at hs
        · rename_i he
          have hyp : s.pc y = .blocked (s.epoch y) := by
            rcases hC.slE t y (by simp [hl]) he.symm with h2 | h2
            · have := hA.busyAct y (by rw [h2]; rfl)
              rw [hy.1, ha] at this
              cases this
              rw [hp] at h2; cases h2
            · exact h2
          have hyd : y ≠ .disp t := by rintro rfl; rw [hp] at hyp; cases hyp
          have hyu : s.pc y ≠ .unborn := by simp [hyp]
          have hyq : y ∉ s.rq t := fun hx => by have := (hB.rq t _ hx).2.2; simp [hyp] at this
          have hvy : sp.st y = .waiting (some (s.tp y)) := by
            rw [hsim.st]; have := hy.1; simp only [State.home] at this; simp [view, hyp, this, hl]
          simp only [Option.some.injEq, Prod.mk.injEq] at hs
          obtain ⟨rfl, rfl⟩ := hs
          have hX : SimX y { s with sl := upd s.sl t l, epoch := set s.epoch y (s.epoch y + 1), pc := set s.pc y .user } (sp.after (.expired y n)) := by
            obtain ⟨s1, s2, s3, s4⟩ := hsim
            refine ⟨?_, ?_, s3, s4⟩
            · intro z hz
              simp only [Spec.after, set_other _ _ hz, s1]
              refine view_congr (by simp [hz]) rfl ?_ rfl Iff.rfl Iff.rfl Iff.rfl
              simp only [upd_apply]; split
              · rename_i e; rw [e, hl]; simp [hz]
              · rfl
            · intro z hz
              refine s2 z ?_
              by_cases e : z = y
              · rw [e]; exact hyu
              · simpa [e] using hz
          have h2 := sim_schedule hX hy.1 (by simp) hyq (.inr (.inl (by simp [Spec.after])))
          refine ⟨⟨⟨s.tp y, hvy, hle, ?_⟩, h2.1, trivial⟩, h2.2⟩
          intro z d' hz hw
          rw [hsim.st] at hw
          have hzw := view_waiting hw
          rw [hsim.on y hyu, hsim.on z (by intro e; simp [e, Pc.waits] at hzw), hy.1] at hz
          rw [hz, hl] at hzw
          rw [← hzw.2.2]
          rcases List.mem_cons.1 hzw.2.1 with rfl | hz
          · exact Nat.le_refl _
          · exact hsort.1 z hz
        · rename_i he
          simp only [Option.some.injEq, Prod.mk.injEq] at hs
          obtain ⟨rfl, rfl⟩ := hs
          refine ⟨trivial, sim_cong hsim rfl rfl rfl rfl (fun _ => .inl rfl) fun z hz => ⟨?_, rfl⟩⟩
          have hzy : z ≠ y := by
            rintro rfl
            have := (hB.rr t z · |>.2.2.1)
            rcases hC.slO t z (by simp [hl]) (Ne.symm he) with h1 | ⟨w, h1⟩
            · rw [this h1] at hz; simp [Pc.waits] at hz
            · rw [(hB.ps w z h1).1] at hz; simp [Pc.waits] at hz
          simp only [upd_apply]; split
          · rename_i e; rw [e, hl]; simp [hzy]
          · rfl
      · rename_i hle
        simp only [Option.some.injEq, Prod.mk.injEq] at hs
        obtain ⟨rfl, rfl⟩ := hs
        refine key ?_
        rw [hl]
        intro z hz
        rcases List.mem_cons.1 hz with rfl | hz
        · omega
        · have := hsort.1 z hz; omega
  · -- pick
    have hx := hd _ hp rfl; subst hx
    split at hs
    · simp only [Option.some.injEq, Prod.mk.injEq] at hs
      obtain ⟨rfl, rfl⟩ := hs
      exact ⟨trivial, sim_relabel hsim (by simp [hp, Pc.plain]) rfl⟩
    · rename_i h00
      rcases leave_some hs with ⟨h0, _⟩ | ⟨y, l, h0, rfl, rfl⟩
      · exact absurd h0 h00
      · obtain ⟨n1, n2, n3, n4⟩ := next_ready h ha h0
        simp only [n4, if_true]
        exact hreq h0 (by simp [hp, Pc.plain]) (.inr rfl)
  · -- idle
    split at hs <;> simp only [Option.some.injEq, Prod.mk.injEq] at hs <;> obtain ⟨rfl, rfl⟩ := hs
    · exact ⟨trivial, sim_relabel hsim (by simp [hp, Pc.plain]) rfl⟩
    · exact ⟨trivial, sim_relabel hsim (by simp [hp, Pc.plain]) rfl⟩
  · -- cnd
    simp only at hs
    split at hs
    · split at hs
      · simp only [Option.some.injEq, Prod.mk.injEq] at hs
        obtain ⟨rfl, rfl⟩ := hs
        exact ⟨trivial, sim_relabel hsim (by simp [hp, Pc.plain]) rfl⟩
      · simp only [Option.some.injEq, Prod.mk.injEq] at hs
        obtain ⟨rfl, rfl⟩ := hs
        exact ⟨trivial, sim_cong hsim rfl rfl rfl rfl (fun _ => .inl rfl) (fun _ _ => ⟨Iff.rfl, rfl⟩)⟩
    · simp at hs
  · -- last
    have hx := hd _ hp rfl; subst hx
    have hrel := sim_release h hsim ha
    have h1 := release_ub hA ha
    have h2 := hA.last t (.inl hp)
    have h3 := (hA.sd t).1 h2.2
    have h4 := hA.sav (.main t) (by grind) (by
      have := hA.dispD t; rw [hp] at this; grind)
    simp only [State.home, homeOf_main, ha] at h4
    simp at h4
    have h5 : s.pc (.main t) = .closed := by
      have e1 := hA.busyAct (.main t)
      simp only [State.home, homeOf_main, ha] at e1
      have e2 := hA.dispD t
      rw [hp] at e2
      clear hrel h1 h2 h4 hsim hne hd hm hreq hh hxq
      cases e : s.pc (.main t) <;> simp [e, Pc.shut, Pc.busy] at h3 e1 e2 ⊢
    rw [h1] at hrel
    simp only [release, switch, Option.some.injEq, Prod.mk.injEq] at hs
    simp only [release] at h1
    obtain ⟨rfl, rfl⟩ := hs
    rw [h1]
    have h6 : set s.saved (.disp t) true (.main t) = true := by simp [h4]
    simp only [h4, if_true, List.foldl_append]
    obtain ⟨r1, s1, s2, s3, s4⟩ := hrel
    refine ⟨r1.append ⟨?_, trivial⟩, ?_, ?_, ?_, ?_⟩
    · simp only [Spec.ok]; rw [s1, s1, s4]; simp [view, release, h5, hp, ha, hxq]
    · intro z
      simp only [List.foldl_cons, List.foldl_nil, Spec.after]
      by_cases hz : z = .disp t
      · subst hz; simp [view]
      · rw [set_other _ _ hz, s1]
        by_cases hzm : z = .main t
        · subst hzm; simp [view, release, h5]
        · refine view_congr (by simp [hz, hzm, release]) rfl Iff.rfl rfl Iff.rfl Iff.rfl ?_
          simp only [upd_apply, release]; split
          · rename_i e; rw [e, ha]; simp [Ne.symm hz, Ne.symm hzm]
          · rfl
    · intro z hz
      simp only [List.foldl_cons, List.foldl_nil, Spec.after]
      refine s2 z ?_
      simp only [release]
      by_cases e : z = .disp t
      · subst e; simp [hp]
      · by_cases e' : z = .main t
        · subst e'; simp [h5]
        · simpa [e, e'] using hz
    · intro u; simp only [List.foldl_cons, List.foldl_nil, Spec.after, s3]; rfl
    · intro u; simp only [List.foldl_cons, List.foldl_nil, Spec.after, upd_apply, s4]; rfl
  · -- ending
    have hx := hm _ hp rfl; subst hx
    simp only [Option.some.injEq, Prod.mk.injEq] at hs
    obtain ⟨rfl, rfl⟩ := hs
    obtain ⟨s1, s2, s3, s4⟩ := hsim
    have hdd := (hA.dispD t).2 (.inl hp)
    refine ⟨⟨⟨by rw [s1]; simp [view, hp], ?_⟩, trivial⟩, ?_, ?_, s3, ?_⟩
    · intro n hn
      rw [s1]
      by_cases hu : s.pc (.work n) = .unborn
      · left; simp [view, hu]
      · right
        rw [s2 _ hu] at hn
        have h1 := (hA.last t (.inr hdd)).1
        have h2 := hT t hdd
        have h3 := hA.wq t (.work n)
        rw [h1] at h3
        have h4 := hA.leav (.work n)
        rw [hn, h2] at h4
        have h5 : s.pc (.work n) = .dead := by
          refine Classical.byContradiction fun h5 => ?_
          have := h3.2 ⟨⟨n, rfl⟩, hn, hu, fun e => by simpa using h4 e, h5⟩
          simp at this
        simp only [State.home, homeOf_work] at hn
        simp [view, h5, hn, h2]
    · intro z
      simp only [List.foldl_cons, List.foldl_nil, Spec.after]
      by_cases hz : z = .main t
      · subst hz; simp [view]
      · simp only [set_apply, hz, if_false, s1]
        refine view_congr (by simp [hz]) rfl Iff.rfl rfl Iff.rfl Iff.rfl ?_
        simp only [upd_apply]; split
        · rename_i e; rw [e, ha]; simp [Ne.symm hz]
        · rfl
    · intro z hz
      refine s2 z ?_
      by_cases e : z = .main t
      · subst e; simp [hp]
      · simpa [e] using hz
    · intro u; simp only [List.foldl_cons, List.foldl_nil, Spec.after, upd_apply, s4]
  · simp at hs

theorem sim_step {e : Event} (h : Inv s) (hD : ID s) (hT : TE s) (hsim : Sim s sp) (hs : step s e = some (s', o)) :
    Runs sp o ∧ Sim s' (o.foldl Spec.after sp) := by
  cases e with
  | thread u =>
    simp only [step] at hs
    split at hs
    · rename_i h1
      simp only [Option.some.injEq, Prod.mk.injEq] at hs
      obtain ⟨rfl, rfl⟩ := hs
      obtain ⟨s1, s2, s3, s4⟩ := hsim
      have ha := (h.a.none u).2 (.inl h1)
      have hr : s.rq u = [] := by
        refine List.eq_nil_iff_forall_not_mem.2 fun z hz => ?_
        obtain ⟨e1, -, e3⟩ := h.b.rq u z hz
        cases z with
        | main v => simp at e1; subst e1; rw [h1] at e3; simp at e3
        | disp v => simp at e1; subst e1; have := (h.a.born v).2 h1; rw [this] at e3; simp at e3
        | work n =>
          simp at e1; subst e1
          exact h.a.wBorn n (by rcases e3 with e3 | e3 <;> simp [e3]) h1
      refine ⟨⟨by simp only [Spec.ok]; rw [s1, s1]; simp [view, h1, (h.a.born u).2 h1], ⟨by simp [Spec.after], by simp [Spec.after, s3, hr], by simp [Spec.after]⟩, trivial⟩, ?_, ?_, ?_, ?_⟩
      · intro z
        simp only [List.foldl_cons, List.foldl_nil, Spec.after]
        by_cases hz : z = .disp u
        · subst hz; simp [view]
        · by_cases hz' : z = .main u
          · subst hz'; simp [view]
          · simp only [set_apply, hz, hz', if_false, s1]
            refine view_congr (by simp [hz, hz']) rfl Iff.rfl rfl Iff.rfl ?_ ?_
            · simp only [upd_apply]; split
              · rename_i e; simp [e, hr, hz]
              · rfl
            · simp only [upd_apply]; split
              · rename_i e; simp [e, ha, Ne.symm hz']
              · rfl
      · intro z hz
        simp only [List.foldl_cons, List.foldl_nil, Spec.after]
        by_cases e : z = .disp u
        · subst e; simp
        · by_cases e' : z = .main u
          · subst e'; simp
          · simp only [set_other _ _ e, set_other _ _ e']; exact s2 z (by simpa [e, e'] using hz)
      · intro v; simp only [List.foldl_cons, List.foldl_nil, Spec.after, upd_apply, s3, hr, List.nil_append]
      · intro v; simp only [List.foldl_cons, List.foldl_nil, Spec.after, upd_apply, s4]
    · simp at hs
  | act u a =>
    simp only [step] at hs
    split at hs
    · rename_i x ha
      split at hs
      · rename_i hu; exact sim_act h hD hsim ha hu hs
      · simp at hs
    · simp at hs
  | run u =>
    simp only [step] at hs
    split at hs
    · rename_i x ha; exact sim_run h hD hT hsim ha hs
    · simp at hs
  | spurious u =>
    simp only [step] at hs
    split at hs
    · simp only [Option.some.injEq, Prod.mk.injEq] at hs
      obtain ⟨rfl, rfl⟩ := hs
      exact ⟨trivial, sim_cong hsim rfl rfl rfl rfl (fun _ => .inl rfl) (fun _ _ => ⟨Iff.rfl, rfl⟩)⟩
    · simp at hs
  | tick n =>
    simp only [step, Option.some.injEq, Prod.mk.injEq] at hs
    obtain ⟨rfl, rfl⟩ := hs
    exact ⟨trivial, sim_cong hsim rfl rfl rfl rfl (fun _ => .inl rfl) (fun _ _ => ⟨Iff.rfl, rfl⟩)⟩

theorem reach_te {tr : List Obs} (h : Reach step init s tr) : TE s :=
  Reach.inv (fun s _ => TE s) (by intro t; simp [init]) (fun _ _ _ _ _ hr h hs => te_step (reach_inv hr) h hs) h

theorem reach_sim {tr : List Obs} (h : Reach step init s tr) : Runs Spec.init tr ∧ Sim s (replay tr) :=
  Reach.inv (fun s tr => Runs Spec.init tr ∧ Sim s (replay tr))
    ⟨trivial, fun _ => rfl, fun _ h => absurd rfl h, fun _ => rfl, fun _ => rfl⟩
    (fun _ tr _ _ _ hr h hs => by
      have := sim_step (reach_inv hr) (reach_id hr) (reach_te hr) h.2 hs
      rw [replay_append]
      exact ⟨h.1.append this.1, this.2⟩) h

end Verif.Sch
