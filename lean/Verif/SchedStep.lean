import Verif.SchedC

/-! # The invariants of the scheduler hold in every reachable state -/

namespace Verif.Sch

variable {s s' : State} {t : Tid} {x y : Cx} {o : List Obs}

theorem upd_upd' {α : Type} (f : Nat → α) (i : Nat) (v w : α) : upd (upd f i v) i w = upd f i w := by
  funext j; simp only [upd_apply]; split <;> rfl

theorem upd_self {α : Type} (f : Nat → α) (i : Nat) : upd f i (f i) = f := by
  funext j; simp only [upd_apply]; split <;> simp_all

theorem set_self {α : Type} (f : Cx → α) (x : Cx) : set f x (f x) = f := by
  funext j; simp only [set_apply]; split <;> simp_all

theorem erase_sl (h : y ∉ s.sl t) : upd s.sl t ((s.sl t).erase y) = s.sl := by
  rw [List.erase_of_not_mem h, upd_self]

theorem transfer_eq (l n : List Cx) : transfer l n = n ++ l := by
  induction l generalizing n with
  | nil => simp [transfer]
  | cons x l ih => simp [transfer, ih]

theorem scheduleAll_eq (s : State) (t : Tid) (l : List Cx) :
    scheduleAll s t l =
      ({ s with sl := upd s.sl t (l.foldl List.erase (s.sl t)), rq := upd s.rq t (s.rq t ++ l) }, l.map (.ready t)) := by
  induction l generalizing s with
  | nil => simp [scheduleAll, upd_self]
  | cons y l ih => simp [scheduleAll, schedule, ih, upd_upd']

/-- `remote_ready2ready_`. -/
theorem IB.collectAll {l : List Cx} (hb : IB s) (hr : s.rr t = l) {sl : Tid → List Cx} :
    IB { s with rr := upd s.rr t [], rq := upd s.rq t (s.rq t ++ l), sl := sl } := by
  induction l generalizing s with
  | nil => rw [show upd s.rr t [] = s.rr by rw [← hr, upd_self], List.append_nil, upd_self]; exact hb.same
  | cons y l ih =>
    have h1 := ih (s := { s with rr := upd s.rr t l, rq := upd s.rq t (s.rq t ++ [y]), sl := sl }) (hb.collect hr) (by simp)
    simpa [upd_upd'] using h1

theorem IC.collectAll {l : List Cx} (hc : IC s) (hr : s.rr t = l) {rq : Tid → List Cx} :
    IC { s with rr := upd s.rr t [], rq := rq, sl := upd s.sl t (l.foldl List.erase (s.sl t)) } := by
  induction l generalizing s with
  | nil => rw [show upd s.rr t [] = s.rr by rw [← hr, upd_self], List.foldl_nil, upd_self]; exact hc.same
  | cons y l ih =>
    have h1 := ih (s := { s with rr := upd s.rr t l, rq := rq, sl := upd s.sl t ((s.sl t).erase y) }) (hc.collect hr) (by simp)
    simpa [upd_upd'] using h1

theorem leave_some {k : State → State × List Obs} (h : leave s t x k = some (s', o)) :
    s.rq t = [] ∧ s' = s ∧ o = [.ub] ∨ ∃ y l, s.rq t = y :: l ∧
      s' = (k { s with rq := upd s.rq t l, active := upd s.active t (some y), saved := set (set s.saved x true) y false }).1 ∧
      o = .run t y :: ((if s.saved y then [] else [.ub]) ++
        (k { s with rq := upd s.rq t l, active := upd s.active t (some y), saved := set (set s.saved x true) y false }).2) := by
  unfold leave at h
  split at h
  · rename_i h1
    simp only [Option.some.injEq, Prod.mk.injEq] at h
    exact .inl ⟨h1, h.1.symm, h.2.symm⟩
  · rename_i y l h1
    simp only [switch, Option.some.injEq, Prod.mk.injEq] at h
    exact .inr ⟨y, l, h1, h.1.symm, h.2.symm⟩

theorem inv_act {a : Act} (h : Inv s) (ha : s.active t = some x) (hu : s.pc x = .user) (hs : act s t x a = some (s', o)) : Inv s' := by
  obtain ⟨hA, hB, hC⟩ := h
  have hns := hC.notSl hA hB ha (by simp [hu])
  have hh := hA.actHome _ _ ha
  cases a with
  | yield =>
    simp only [act, Option.some.injEq, Prod.mk.injEq] at hs
    obtain ⟨rfl, rfl⟩ := hs
    refine ⟨hA.relabel ha ?_ ?_ ?_ ?_ ?_ ?_ ?_ ?_, hB.relabel hA ha ?_ ?_ ?_, hC.relabel hA ha ?_ ?_ ?_ ?_⟩ <;> simp [hu, Pc.busy, Pc.disp, Pc.shut]
  | spawn n d =>
    simp only [act] at hs
    split at hs
    · rename_i hn
      have hxn : Cx.work n ≠ x := by intro e; rw [e, hu] at hn; cases hn
      have hna : s.active t ≠ some (.work n) := by rw [ha]; simp [Ne.symm hxn]
      have hxd : ∀ u, x ≠ .disp u := by
        rintro u rfl
        have := hA.kDisp u
        simp [hu, Pc.disp] at this
      have hny : ∀ u, Cx.work n ∉ s.sl u := hC.notSlUnborn hB hn
      cases d with
      | false =>
        simp only [schedule, Bool.false_eq_true, if_false, Option.some.injEq, Prod.mk.injEq] at hs
        obtain ⟨rfl, rfl⟩ := hs
        rw [erase_sl (hny t)]
        refine ⟨hA.attach ha hu hn, ?_, hC.rehome hB hn⟩
        exact (hB.rehome hn (t := t)).attach hn (by simp) hna
      | true =>
        simp only [schedule, switch, if_true, Option.some.injEq, Prod.mk.injEq] at hs
        obtain ⟨rfl, rfl⟩ := hs
        rw [erase_sl (hns t)]
        refine ⟨?_, ?_, hC.rehome hB hn⟩
        · have h1 := (hA.attach (rq := s.rq) (sl := s.sl) ha hu hn).switch (t := t) (x := x) (y := .work n) (p := .user) (by exact ha) hxn
            (by simp) (.inl (by simp)) (.inl ⟨by simp [Ne.symm hxn, hu], rfl⟩) (rq := upd s.rq t (s.rq t ++ [x])) (sl := s.sl)
          rw [show set (set s.pc (.work n) .user) x .user = set s.pc (.work n) .user from ?_] at h1
          · exact h1
          · funext z; simp only [set_apply]; split
            · rename_i e; subst e; simp [Ne.symm hxn, hu]
            · rfl
        · exact (hB.rehome hn (t := t) (saved := s.saved)).launch hxd ha hu hn (by simp) (by simp only [State.home, homeOf_upd, Ne.symm hxn, if_false]; exact hh)
    · simp at hs
  | wait dl =>
    cases dl with
    | none =>
      simp only [act, Option.some.injEq, Prod.mk.injEq] at hs
      obtain ⟨rfl, rfl⟩ := hs
      refine ⟨hA.relabel ha ?_ ?_ ?_ ?_ ?_ ?_ ?_ ?_, hB.relabel hA ha ?_ ?_ ?_, hC.park hA hB ha hu true⟩ <;> simp [hu, Pc.busy, Pc.disp, Pc.shut]
    | some d =>
      simp only [act, Option.some.injEq, Prod.mk.injEq] at hs
      obtain ⟨rfl, rfl⟩ := hs
      refine ⟨hA.relabel ha ?_ ?_ ?_ ?_ ?_ ?_ ?_ ?_, hB.relabel hA ha ?_ ?_ ?_, hC.parkT hA hB ha hu true _ _⟩ <;> simp [hu, Pc.busy, Pc.disp, Pc.shut]
  | sleep d =>
    simp only [act, Option.some.injEq, Prod.mk.injEq] at hs
    obtain ⟨rfl, rfl⟩ := hs
    refine ⟨hA.relabel ha ?_ ?_ ?_ ?_ ?_ ?_ ?_ ?_, hB.relabel hA ha ?_ ?_ ?_, hC.parkT hA hB ha hu false _ _⟩ <;> simp [hu, Pc.busy, Pc.disp, Pc.shut]
  | wake y ep =>
    simp only [act] at hs
    split at hs
    · rename_i h1
      split at hs
      · rename_i h2
        have hy : s.pc y = .blocked ep := by
          subst h2
          rcases hC.pubE y h1.1 with h3 | h3
          · exact absurd h3 h1.2
          · exact h3
        split at hs
        · rename_i h3
          simp only [schedule, Option.some.injEq, Prod.mk.injEq] at hs
          obtain ⟨rfl, rfl⟩ := hs
          exact ⟨hA.wake hy, hB.wake hA hy h3, hC.wake hy h3 h2⟩
        · simp only [Option.some.injEq, Prod.mk.injEq] at hs
          obtain ⟨rfl, rfl⟩ := hs
          have hyx : x ≠ y := by rintro rfl; simp [hu] at hy
          refine ⟨?_, hB.wakeRemote hA hy ha hu, hC.wakeRemote hA hy h2 ha hu⟩
          refine (hA.wake hy (rq := s.rq) (rr := s.rr) (sl := s.sl) (epoch := s.epoch)).relabel (t := t) (x := x) (by exact ha) ?_ ?_ ?_ ?_ ?_ ?_ ?_ ?_ <;> simp [hu, hyx, Pc.busy, Pc.disp, Pc.shut]
      · simp only [Option.some.injEq, Prod.mk.injEq] at hs
        obtain ⟨rfl, rfl⟩ := hs
        exact ⟨hA, hB, hC⟩
    · simp at hs
  | finish =>
    cases x with
    | work n =>
      simp only [act, Option.some.injEq, Prod.mk.injEq] at hs
      obtain ⟨rfl, rfl⟩ := hs
      refine ⟨hA.finish ha hu, hB.relabel hA ha ?_ ?_ ?_, hC.relabel hA ha ?_ ?_ ?_ ?_⟩ <;> simp [hu, Pc.busy]
    | _ => simp [act] at hs
  | setAlgo =>
    simp only [act, Option.some.injEq, Prod.mk.injEq, transfer_eq, List.nil_append, upd_self] at hs
    obtain ⟨rfl, rfl⟩ := hs
    exact ⟨hA.same, hB.same, hC.same⟩
  | exit =>
    simp only [act] at hs
    split at hs
    · rename_i h1; subst h1
      simp only [Option.some.injEq, Prod.mk.injEq] at hs
      obtain ⟨rfl, rfl⟩ := hs
      refine ⟨hA.exit ha hu, hB.relabel hA ha ?_ ?_ ?_, hC.relabel hA ha ?_ ?_ ?_ ?_⟩ <;> simp [hu, Pc.busy]
    · simp at hs

/-- Switching to the next ready context. -/
theorem next_ready (h : Inv s) (ha : s.active t = some x) {l : List Cx} (hr : s.rq t = y :: l) :
    s.home y = t ∧ (s.pc y = .user ∨ s.pc y = .top) ∧ y ≠ x ∧ s.saved y = true := by
  have h1 := h.b.rq t y (by simp [hr])
  have h2 : y ≠ x := by rintro rfl; exact h1.2.1 ha
  refine ⟨h1.1, h1.2.2, h2, ?_⟩
  rcases h.a.sav y (by grind) (by grind) with h3 | h3
  · rw [h1.1] at h3; exact absurd h3 h1.2.1
  · exact h3

theorem rq_ne_nil (h : Inv s) (ha : s.active t = some x) (hx : x ≠ .disp t) (he : s.pc x ≠ .ending) : s.rq t ≠ [] := by
  intro h0
  have h1 := h.a.none t
  have h2 := h.a.kDisp t
  have h3 := h.a.born t
  have h4 := h.a.dispD t
  have h5 := h.b.top t
  have h6 := h.a.busyAct (.disp t)
  have h7 := h.a.busyAct (.main t)
  simp only [State.home, homeOf_main, homeOf_disp, ha, h0] at *
  rcases hp : s.pc (.disp t) <;> simp_all [Pc.busy, Pc.disp] <;> grind

theorem tq_saved (hA : IA s) (ha : s.active t = some (.disp t)) : ∀ z ∈ s.tq t, s.saved z = true := by
  intro z hz
  have h1 := hA.tq t z hz
  rcases h1.2.2 with h2 | h2
  · have := hA.busyAct z (by rw [h2]; rfl)
    rw [h1.2.1, ha] at this
    cases this
    have := hA.kDisp t; rw [h2] at this; simp [Pc.disp] at this
  · exact h2.2

theorem release_ub (hA : IA s) (ha : s.active t = some (.disp t)) :
    (release s t).2 = (s.tq t).map .released := by
  have h1 := tq_saved hA ha
  simp only [release]
  generalize s.tq t = l at h1
  induction l with
  | nil => rfl
  | cons z l ih =>
    simp only [List.flatMap_cons, List.map_cons]
    rw [ih (fun w hw => h1 w (by simp [hw])), h1 z (by simp)]; rfl

theorem not_gone (h : Inv s) (hy : s.pc y = .user) : s.gone (s.home y) = false := by
  cases hg : s.gone (s.home y) with
  | false => rfl
  | true =>
    have h1 := (h.a.gone _).1 hg
    cases y with
    | main u => simp only [State.home, homeOf_main] at h1; rw [hy] at h1; cases h1
    | disp u => have := h.a.kDisp u; rw [hy] at this; simp [Pc.disp] at this
    | work n =>
      have h2 := (h.a.dispD _).2 (.inr h1)
      have h3 := h.a.last _ (.inr h2)
      have h4 := (h.a.wq (s.home (.work n)) (.work n)).2 (by simp [hy])
      rw [h3.1] at h4; cases h4

theorem inv_run (h : Inv s) (ha : s.active t = some x) (hs : run s t x = some (s', o)) : Inv s' ∧ Obs.ub ∉ o := by
  have hA := h.a
  have hB := h.b
  have hC := h.c
  have hh := hA.actHome _ _ ha
  have hd : ∀ p, s.pc x = p → p.disp → x = .disp t := by
    intro p hp hpd
    cases x with
    | disp u => simp at hh; rw [hh]
    | main u => have := hA.kMain u; simp_all
    | work n => have := hA.kWork n; simp_all
  have hm : ∀ p, s.pc x = p → p.shut → x = .main t := by
    intro p hp hpd
    cases x with
    | main u => simp at hh; rw [hh]
    | disp u => have := hA.kDisp u; rw [hp] at this; cases p <;> simp_all [Pc.disp, Pc.shut]
    | work n => have := hA.kWork n; simp_all
  have hne : ∀ p, s.pc x = p → p.disp = false → p ≠ .ending → s.rq t ≠ [] := by
    intro p hp hpd hpe
    refine rq_ne_nil h ha ?_ (by rw [hp]; exact hpe)
    rintro rfl
    have := hA.kDisp t
    have := hA.actPc _ _ ha
    cases p <;> simp_all [Pc.disp, Pc.busy]
  unfold run at hs
  split at hs <;> rename_i hp
  · -- yielding
    have hns := hC.notSl hA hB ha (by simp [hp])
    rcases leave_some hs with ⟨h0, _⟩ | ⟨y, l, h0, rfl, rfl⟩
    · exact absurd h0 (hne _ hp rfl (by simp))
    · obtain ⟨n1, n2, n3, n4⟩ := next_ready h ha h0
      simp only [schedule, n4, upd_same, upd_upd', if_true]
      rw [erase_sl (hns t)]
      exact ⟨⟨hA.switch ha n3 n1 n2 (.inr (.inl ⟨hp, rfl⟩)), hB.requeue hA ha h0 (.inl ⟨hp, rfl⟩), hC.leave hA ha (.inr (.inl ⟨hp, rfl⟩))⟩, by simp⟩
  · -- parking
    rename_i ep
    rcases leave_some hs with ⟨h0, _⟩ | ⟨y, l, h0, rfl, rfl⟩
    · exact absurd h0 (hne _ hp rfl (by simp))
    · obtain ⟨n1, n2, n3, n4⟩ := next_ready h ha h0
      simp only [n4, if_true]
      exact ⟨⟨hA.switch ha n3 n1 n2 (.inr (.inr (.inl ⟨_, hp, rfl⟩))), hB.leave hA ha h0 (.inl ⟨_, hp, rfl⟩), hC.leave hA ha (.inr (.inr (.inl ⟨_, hp, rfl⟩)))⟩, by simp⟩
  · -- leaving
    rcases leave_some hs with ⟨h0, _⟩ | ⟨y, l, h0, rfl, rfl⟩
    · exact absurd h0 (hne _ hp rfl (by simp))
    · obtain ⟨n1, n2, n3, n4⟩ := next_ready h ha h0
      simp only [n4, if_true]
      exact ⟨⟨hA.switch ha n3 n1 n2 (.inr (.inr (.inr (.inl ⟨hp, rfl⟩)))), hB.leave hA ha h0 (.inr (.inl ⟨hp, rfl⟩)), hC.leave hA ha (.inr (.inr (.inr (.inl ⟨hp, rfl⟩))))⟩, by simp⟩
  · -- closing
    rcases leave_some hs with ⟨h0, _⟩ | ⟨y, l, h0, rfl, rfl⟩
    · exact absurd h0 (hne _ hp rfl (by simp))
    · obtain ⟨n1, n2, n3, n4⟩ := next_ready h ha h0
      simp only [n4, if_true]
      exact ⟨⟨hA.switch ha n3 n1 n2 (.inr (.inr (.inr (.inr (.inl ⟨hp, rfl⟩))))), hB.leave hA ha h0 (.inr (.inr ⟨hp, rfl⟩)), hC.leave hA ha (.inr (.inr (.inr (.inr (.inl ⟨hp, rfl⟩)))))⟩, by simp⟩
  · -- push
    rename_i y
    simp only [not_gone h (hB.ps x y hp).1] at hs
    split at hs
    · contradiction
    · simp only [Option.some.injEq, Prod.mk.injEq] at hs
      obtain ⟨rfl, rfl⟩ := hs
      refine ⟨⟨hA.relabel ha ?_ ?_ ?_ ?_ ?_ ?_ ?_ ?_, hB.push hA ha hp, hC.push hB hp⟩, ?_⟩
      any_goals simp [hp, Pc.busy, Pc.disp, Pc.shut]
  · -- notify
    split at hs <;>
    · simp only [Option.some.injEq, Prod.mk.injEq] at hs
      obtain ⟨rfl, rfl⟩ := hs
      refine ⟨⟨hA.relabel ha ?_ ?_ ?_ ?_ ?_ ?_ ?_ ?_, hB.relabel hA ha ?_ ?_ ?_, hC.relabel hA ha ?_ ?_ ?_ ?_⟩, ?_⟩
      all_goals simp [hp, Pc.busy, Pc.disp, Pc.shut]
  · -- signal
    split at hs <;>
    · simp only [Option.some.injEq, Prod.mk.injEq] at hs
      obtain ⟨rfl, rfl⟩ := hs
      refine ⟨⟨hA.relabel ha ?_ ?_ ?_ ?_ ?_ ?_ ?_ ?_, hB.relabel hA ha ?_ ?_ ?_, hC.relabel hA ha ?_ ?_ ?_ ?_⟩, ?_⟩
      all_goals simp [hp, Pc.busy, Pc.disp, Pc.shut]
  · -- top
    have hx := hd _ hp rfl; subst hx
    have hub : Obs.ub ∉ (release s t).2 := by rw [release_ub hA ha]; simp
    have key : ∀ fl, Inv { s with flag := fl, tq := upd s.tq t [], pc := set s.pc (.disp t) .collect } := by
      intro fl
      refine ⟨(hA.release ha).relabel (t := t) (by exact ha) ?_ ?_ ?_ ?_ ?_ ?_ ?_ ?_, hB.relabel hA ha ?_ ?_ ?_, hC.relabel hA ha ?_ ?_ ?_ ?_⟩
      all_goals simp [hp, Pc.busy, Pc.disp, Pc.shut]
    split at hs
    · rename_i hsd
      split at hs
      · rename_i hw
        simp only [Option.some.injEq, Prod.mk.injEq] at hs
        obtain ⟨rfl, rfl⟩ := hs
        refine ⟨⟨hA.relabel ha ?_ ?_ ?_ ?_ ?_ ?_ ?_ ?_, hB.relabel hA ha ?_ ?_ ?_, hC.relabel hA ha ?_ ?_ ?_ ?_⟩, ?_⟩
        all_goals simp [hp, hw, hsd, Pc.busy, Pc.disp, Pc.shut]
      · simp only [release, Option.some.injEq, Prod.mk.injEq] at hs
        obtain ⟨rfl, rfl⟩ := hs
        exact ⟨key _, hub⟩
    · simp only [release, Option.some.injEq, Prod.mk.injEq] at hs
      obtain ⟨rfl, rfl⟩ := hs
      exact ⟨key _, hub⟩
  · -- collect
    have hx := hd _ hp rfl; subst hx
    simp only [scheduleAll_eq, Option.some.injEq, Prod.mk.injEq] at hs
    obtain ⟨rfl, rfl⟩ := hs
    refine ⟨⟨hA.relabel ha ?_ ?_ ?_ ?_ ?_ ?_ ?_ ?_, (hB.collectAll (t := t) rfl (sl := s.sl)).relabel (t := t) (hA.same) (by exact ha) ?_ ?_ ?_,
      (hC.collectAll (t := t) rfl (rq := s.rq)).relabel (t := t) (hA.same) (by exact ha) ?_ ?_ ?_ ?_⟩, ?_⟩
    all_goals simp [hp, Pc.busy, Pc.disp, Pc.shut]
  · -- clock
    have hx := hd _ hp rfl; subst hx
    simp only [Option.some.injEq, Prod.mk.injEq] at hs
    obtain ⟨rfl, rfl⟩ := hs
    refine ⟨⟨hA.relabel ha ?_ ?_ ?_ ?_ ?_ ?_ ?_ ?_, hB.relabel hA ha ?_ ?_ ?_, hC.relabel hA ha ?_ ?_ ?_ ?_⟩, ?_⟩
    all_goals simp [hp, Pc.busy, Pc.disp, Pc.shut]
  · -- timers
    rename_i n
    have hx := hd _ hp rfl; subst hx
    have key : Inv { s with pc := set s.pc (.disp t) .pick } := by
      refine ⟨hA.relabel ha ?_ ?_ ?_ ?_ ?_ ?_ ?_ ?_, hB.relabel hA ha ?_ ?_ ?_, hC.relabel hA ha ?_ ?_ ?_ ?_⟩
      all_goals simp [hp, Pc.busy, Pc.disp, Pc.shut]
    split at hs
    · simp only [Option.some.injEq, Prod.mk.injEq] at hs
      obtain ⟨rfl, rfl⟩ := hs
      exact ⟨key, by simp⟩
    · rename_i y l hl
      split at hs
      · split at hs
        · rename_i he
          have hy := hC.slH t y (by simp [hl])
          have hyp : s.pc y = .blocked (s.epoch y) := by
            rcases hC.slE t y (by simp [hl]) he.symm with h2 | h2
            · have := hA.busyAct y (by rw [h2]; rfl)
              rw [hy.1, ha] at this
              cases this
              rw [hp] at h2; cases h2
            · exact h2
          have hyl : y ∉ l := by have := hC.slN t; rw [hl] at this; simp at this; exact this.1
          simp only [schedule, upd_same, upd_upd', Option.some.injEq, Prod.mk.injEq] at hs
          obtain ⟨rfl, rfl⟩ := hs
          refine ⟨⟨hA.wake hyp, hB.wake hA hyp hy.1, ?_⟩, by simp⟩
          have := hC.wake hyp hy.1 rfl (rq := upd s.rq t (s.rq t ++ [y]))
          rw [hl, List.erase_cons_head] at this
          rwa [List.erase_of_not_mem hyl]
        · simp only [Option.some.injEq, Prod.mk.injEq] at hs
          obtain ⟨rfl, rfl⟩ := hs
          exact ⟨⟨hA.same, hB.same, hC.drop hl⟩, by simp⟩
      · simp only [Option.some.injEq, Prod.mk.injEq] at hs
        obtain ⟨rfl, rfl⟩ := hs
        exact ⟨key, by simp⟩
  · -- pick
    have hx := hd _ hp rfl; subst hx
    have hns := hC.notSl hA hB ha (by simp [hp])
    split at hs
    · simp only [Option.some.injEq, Prod.mk.injEq] at hs
      obtain ⟨rfl, rfl⟩ := hs
      refine ⟨⟨hA.relabel ha ?_ ?_ ?_ ?_ ?_ ?_ ?_ ?_, hB.relabel hA ha ?_ ?_ ?_, hC.relabel hA ha ?_ ?_ ?_ ?_⟩, ?_⟩
      all_goals simp [hp, Pc.busy, Pc.disp, Pc.shut]
    · rename_i h00
      rcases leave_some hs with ⟨h0, _⟩ | ⟨y, l, h0, rfl, rfl⟩
      · exact absurd h0 h00
      · obtain ⟨n1, n2, n3, n4⟩ := next_ready h ha h0
        simp only [schedule, n4, upd_same, upd_upd', if_true]
        rw [erase_sl (hns t)]
        exact ⟨⟨hA.switch ha n3 n1 n2 (.inr (.inr (.inr (.inr (.inr ⟨hp, rfl⟩))))), hB.requeue hA ha h0 (.inr ⟨hp, rfl⟩),
          hC.leave hA ha (.inr (.inr (.inr (.inr (.inr ⟨hp, rfl⟩)))))⟩, by simp⟩
  · -- idle
    have hx := hd _ hp rfl; subst hx
    split at hs <;>
    · simp only [Option.some.injEq, Prod.mk.injEq] at hs
      obtain ⟨rfl, rfl⟩ := hs
      refine ⟨⟨hA.relabel ha ?_ ?_ ?_ ?_ ?_ ?_ ?_ ?_, hB.relabel hA ha ?_ ?_ ?_, hC.relabel hA ha ?_ ?_ ?_ ?_⟩, ?_⟩
      all_goals simp [hp, Pc.busy, Pc.disp, Pc.shut]
  · -- cnd
    have hx := hd _ hp rfl; subst hx
    simp only at hs
    split at hs
    · split at hs
      · simp only [Option.some.injEq, Prod.mk.injEq] at hs
        obtain ⟨rfl, rfl⟩ := hs
        refine ⟨⟨hA.relabel ha ?_ ?_ ?_ ?_ ?_ ?_ ?_ ?_, hB.relabel hA ha ?_ ?_ ?_, hC.relabel hA ha ?_ ?_ ?_ ?_⟩, ?_⟩
        all_goals simp [hp, Pc.busy, Pc.disp, Pc.shut]
      · simp only [Option.some.injEq, Prod.mk.injEq] at hs
        obtain ⟨rfl, rfl⟩ := hs
        exact ⟨⟨hA.same, hB.same, hC.same⟩, by simp⟩
    · simp at hs
  · -- last
    have hx := hd _ hp rfl; subst hx
    simp only [release, switch, Option.some.injEq, Prod.mk.injEq] at hs
    obtain ⟨rfl, rfl⟩ := hs
    refine ⟨⟨(hA.release ha).final (by exact ha) (by exact hp), hB.last hA ha hp, hC.final hA ha hp⟩, ?_⟩
    have h1 := release_ub hA ha
    simp only [release] at h1
    have h2 := hA.last t (.inl hp)
    have h3 := (hA.sd t).1 h2.2
    have h4 := hA.sav (.main t) (by grind) (by
      have := hA.dispD t; rw [hp] at this; grind)
    rw [h1]
    simp only [State.home, homeOf_main, ha] at h4
    simp at h4
    simp [h4]
  · -- ending
    have hx := hm _ hp rfl; subst hx
    simp only [Option.some.injEq, Prod.mk.injEq] at hs
    obtain ⟨rfl, rfl⟩ := hs
    exact ⟨⟨hA.ending ha hp, hB.ending ha hp, hC.ending hp⟩, by simp⟩
  · simp at hs

theorem ub_act {a : Act} (hs : act s t x a = some (s', o)) : Obs.ub ∉ o := by
  cases a with
  | spawn n d =>
    simp only [act] at hs
    split at hs
    · cases d with
      | false =>
        simp only [schedule, Bool.false_eq_true, if_false, Option.some.injEq, Prod.mk.injEq] at hs
        obtain ⟨-, rfl⟩ := hs; simp
      | true =>
        simp only [schedule, switch, if_true, Option.some.injEq, Prod.mk.injEq] at hs
        obtain ⟨-, rfl⟩ := hs; simp
    · simp at hs
  | wait dl =>
    cases dl <;>
    · simp only [act, Option.some.injEq, Prod.mk.injEq] at hs
      obtain ⟨-, rfl⟩ := hs; simp
  | wake y ep =>
    simp only [act] at hs
    split at hs
    · split at hs
      · split at hs <;>
        · simp only [schedule, Option.some.injEq, Prod.mk.injEq] at hs
          obtain ⟨-, rfl⟩ := hs; simp
      · simp only [Option.some.injEq, Prod.mk.injEq] at hs
        obtain ⟨-, rfl⟩ := hs; simp
    · simp at hs
  | finish =>
    cases x <;> simp only [act, Option.some.injEq, Prod.mk.injEq, reduceCtorEq] at hs
    obtain ⟨-, rfl⟩ := hs; simp
  | exit =>
    simp only [act] at hs
    split at hs
    · simp only [Option.some.injEq, Prod.mk.injEq] at hs
      obtain ⟨-, rfl⟩ := hs; simp
    · simp at hs
  | _ =>
    simp only [act, Option.some.injEq, Prod.mk.injEq] at hs
    obtain ⟨-, rfl⟩ := hs; simp

theorem inv_step {e : Event} (h : Inv s) (hs : step s e = some (s', o)) : Inv s' ∧ Obs.ub ∉ o := by
  cases e with
  | thread u =>
    simp only [step] at hs
    split at hs
    · rename_i h1
      simp only [Option.some.injEq, Prod.mk.injEq] at hs
      obtain ⟨rfl, rfl⟩ := hs
      exact ⟨⟨h.a.thread h1, h.b.thread h.a h1, h.c.thread h.a h1⟩, by simp⟩
    · simp at hs
  | act u a =>
    simp only [step] at hs
    split at hs
    · rename_i z hz
      split at hs
      · rename_i hu
        exact ⟨inv_act h hz hu hs, ub_act hs⟩
      · simp at hs
    · simp at hs
  | run u =>
    simp only [step] at hs
    split at hs
    · rename_i z hz
      exact inv_run h hz hs
    · simp at hs
  | spurious u =>
    simp only [step] at hs
    split at hs
    · simp only [Option.some.injEq, Prod.mk.injEq] at hs
      obtain ⟨rfl, rfl⟩ := hs
      exact ⟨⟨h.a.same, h.b.same, h.c.same⟩, by simp⟩
    · simp at hs
  | tick n =>
    simp only [step, Option.some.injEq, Prod.mk.injEq] at hs
    obtain ⟨rfl, rfl⟩ := hs
    exact ⟨⟨h.a.same, h.b.same, h.c.same⟩, by simp⟩

theorem inv_init : Inv init := by
  refine ⟨?_, ?_, ?_⟩ <;> constructor <;> simp [init, Pc.busy, Pc.disp, Pc.shut]

theorem reach_inv {tr : List Obs} (h : Reach step init s tr) : Inv s :=
  Reach.inv (fun s _ => Inv s) inv_init (fun _ _ _ _ _ _ h hs => (inv_step h hs).1) h

end Verif.Sch
