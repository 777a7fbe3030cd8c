import Verif.SchedStep

/-! # Invariants of the scheduler: order of sleepers, idling, notification -/

namespace Verif.Sch

variable {s s' : State} {t : Tid} {x y : Cx} {o : List Obs}

/-- The dispatcher has emptied the remote queue and not started over. -/
@[grind] def Pc.past : Pc → Bool
  | .clock | .timers _ | .pick | .idle _ | .cnd _ => true
  | _ => false

/-- The dispatcher is in its loop, past the test of `shutdown_`, not blocked. -/
@[grind] def Pc.loop : Pc → Bool
  | .collect | .clock | .timers _ | .pick | .idle _ => true
  | _ => false

@[grind] def Pc.wait : Pc → Option (Option Nat)
  | .idle dl => some dl
  | .cnd dl => some dl
  | _ => none

structure ID (s : State) : Prop where
  slS : ∀ t, (s.sl t).Pairwise (fun a b => s.tp a ≤ s.tp b)
  clk : ∀ t n, s.pc (.disp t) = .timers n → n ≤ s.now
  idl : ∀ t dl, (s.pc (.disp t)).wait = some dl → s.rq t = [] ∧ dl = (s.sl t).head?.map s.tp
  rem : ∀ t, s.rr t ≠ [] → (s.pc (.disp t)).past → s.flag t ∨ ∃ z, s.pc z = .notify t
  sg  : ∀ t dl, s.pc (.disp t) = .cnd dl → s.flag t → s.sig t ∨ ∃ z, s.pc z = .signal t
  sdf : ∀ t, s.sd t → (s.pc (.disp t)).loop → s.flag t
  sdc : ∀ t dl, s.sd t → s.pc (.disp t) ≠ .cnd dl

theorem sorted_insertBy {tp : Cx → Nat} {l : List Cx} (h : l.Pairwise (fun a b => tp a ≤ tp b)) :
    (insertBy tp x l).Pairwise (fun a b => tp a ≤ tp b) := by
  induction l with
  | nil => simp [insertBy]
  | cons z l ih =>
    rw [List.pairwise_cons] at h
    unfold insertBy
    split
    · rw [List.pairwise_cons]
      refine ⟨fun a ha => ?_, ih h.2⟩
      rw [mem_insertBy] at ha
      rcases ha with rfl | ha
      · assumption
      · exact h.1 a ha
    · rename_i hz
      rw [List.pairwise_cons, List.pairwise_cons]
      refine ⟨fun a ha => ?_, h⟩
      rw [List.mem_cons] at ha
      rcases ha with rfl | ha
      · omega
      · have := h.1 a ha; omega

theorem sorted_foldl_erase {tp : Cx → Nat} {l r : List Cx} (h : l.Pairwise (fun a b => tp a ≤ tp b)) :
    (r.foldl List.erase l).Pairwise (fun a b => tp a ≤ tp b) := by
  induction r generalizing l with
  | nil => exact h
  | cons z r ih => exact ih (h.sublist List.erase_sublist)

/-- While a fiber runs, the dispatcher of its thread is waiting for its turn. -/
theorem IA.off (h : IA s) (ha : s.active t = some x) (hx : x ≠ .disp t) :
    s.pc (.disp t) = .top ∨ s.pc (.disp t) = .dead := by
  have h1 := h.kDisp t
  have h2 := h.busyAct (.disp t)
  have h3 := h.born t
  have h4 := h.none t
  simp only [State.home, homeOf_disp, ha] at h2
  rcases hp : s.pc (.disp t) <;> simp_all [Pc.busy, Pc.disp]

theorem ID.same (h : ID s) {hm : Nat → Tid} {saved : Cx → Bool} {wq tq : Tid → List Cx} {active : Tid → Option Cx}
    {gone : Tid → Bool} {epoch sep : Cx → Nat} {pub : Cx → List Nat} :
    ID { s with hm := hm, saved := saved, wq := wq, tq := tq, active := active, gone := gone, epoch := epoch, sep := sep, pub := pub } := by
  obtain ⟨d1, d2, d3, d4, d5, d6, d7⟩ := h
  constructor <;> assumption

/-- A step of a fiber `x` of thread `t` that is not the dispatcher. -/
theorem ID.other (hA : IA s) (h : ID s) (ha : s.active t = some x) (hx : x ≠ .disp t) {pc : Cx → Pc} {tp : Cx → Nat} {l r : List Cx}
    {b : Bool} (hpc : ∀ u, pc (.disp u) = s.pc (.disp u)) (hn : ∀ z u, s.pc z = .notify u ∨ s.pc z = .signal u → pc z = s.pc z)
    (htp : ∀ u ≠ t, ∀ z ∈ s.sl u, tp z = s.tp z) (hl : l.Pairwise (fun a b => tp a ≤ tp b)) {sd : Tid → Bool}
    (hsd : ∀ u ≠ t, sd u = s.sd u) :
    ID { s with pc := pc, tp := tp, sl := upd s.sl t l, rq := upd s.rq t r, flag := upd s.flag t b, sd := sd } := by
  have hoff := hA.off ha hx
  obtain ⟨d1, d2, d3, d4, d5, d6, d7⟩ := h
  constructor
  all_goals simp only [upd_apply, hpc]
  · intro u
    split
    · exact hl
    · rename_i hu
      refine (d1 u).imp_of_mem ?_
      intro a b ha hb hab
      rw [htp u hu a ha, htp u hu b hb]; exact hab
  · exact d2
  · intro u dl hu
    have hut : u ≠ t := by rintro rfl; rcases hoff with e | e <;> simp [e, Pc.wait] at hu
    simp only [hut, if_false]
    refine ⟨(d3 u dl hu).1, ?_⟩
    rw [(d3 u dl hu).2]
    rcases hq : s.sl u with _ | ⟨z, k⟩
    · rfl
    · simp [htp u hut z (by simp [hq])]
  · intro u h1 h2
    have hut : u ≠ t := by rintro rfl; rcases hoff with e | e <;> simp [e, Pc.past] at h2
    simp only [hut, if_false]
    rcases d4 u h1 h2 with h3 | ⟨z, h3⟩
    · exact .inl h3
    · exact .inr ⟨z, by rw [hn z u (.inl h3)]; exact h3⟩
  · intro u dl h1 h2
    have hut : u ≠ t := by rintro rfl; rcases hoff with e | e <;> simp [e] at h1
    simp only [hut, if_false] at h2
    rcases d5 u dl h1 h2 with h3 | ⟨z, h3⟩
    · exact .inl h3
    · exact .inr ⟨z, by rw [hn z u (.inr h3)]; exact h3⟩
  · intro u h1 h2
    have hut : u ≠ t := by rintro rfl; rcases hoff with e | e <;> simp [e, Pc.loop] at h2
    simp only [hut, if_false]
    exact d6 u (by rw [← hsd u hut]; exact h1) h2
  · intro u dl h1 h2
    have hut : u ≠ t := by rintro rfl; rcases hoff with e | e <;> simp [e] at h2
    exact d7 u dl (by rw [← hsd u hut]; exact h1) h2

theorem id_act {a : Act} (h : Inv s) (hd : ID s) (ha : s.active t = some x) (hu : s.pc x = .user) (hs : act s t x a = some (s', o)) : ID s' := by
  have hA := h.a
  have hC := h.c
  have hx : ∀ u, x ≠ .disp u := by
    rintro u rfl
    have := hA.kDisp u; rw [hu] at this; simp [Pc.disp] at this
  have hns := hC.notSl hA h.b ha (by simp [hu])
  have hpc : ∀ p, (∀ u, set s.pc x p (.disp u) = s.pc (.disp u)) ∧ ∀ z u, s.pc z = .notify u ∨ s.pc z = .signal u → set s.pc x p z = s.pc z := by
    intro p
    refine ⟨fun u => set_other _ _ (Ne.symm (hx u)), fun z u hz => ?_⟩
    simp only [set_apply]; split
    · subst_vars; simp [hu] at hz
    · rfl
  have key := @ID.other s t x hA hd ha (hx t)
  cases a with
  | yield =>
    simp only [act, Option.some.injEq, Prod.mk.injEq] at hs
    obtain ⟨rfl, rfl⟩ := hs
    have := key (hpc .yielding).1 (hpc .yielding).2 (tp := s.tp) (l := s.sl t) (r := s.rq t) (b := s.flag t) (fun _ _ _ _ => rfl) (hd.slS t) (fun _ _ => rfl)
    simpa only [upd_self] using this
  | spawn n d =>
    simp only [act] at hs
    split at hs
    · rename_i hn
      have hpc' : (∀ u, set s.pc (.work n) .user (.disp u) = s.pc (.disp u)) ∧ ∀ z u, s.pc z = .notify u ∨ s.pc z = .signal u → set s.pc (.work n) .user z = s.pc z := by
        refine ⟨fun u => set_other _ _ (by simp), fun z u hz => ?_⟩
        simp only [set_apply]; split
        · subst_vars; simp [hn] at hz
        · rfl
      cases d with
      | false =>
        simp only [schedule, Bool.false_eq_true, if_false, Option.some.injEq, Prod.mk.injEq] at hs
        obtain ⟨rfl, rfl⟩ := hs
        have := key hpc'.1 hpc'.2 (tp := s.tp) (l := (s.sl t).erase (.work n)) (r := s.rq t ++ [.work n]) (b := s.flag t) (fun _ _ _ _ => rfl)
          ((hd.slS t).sublist List.erase_sublist) (fun _ _ => rfl)
        rw [upd_self] at this
        exact this.same
      | true =>
        simp only [schedule, switch, if_true, Option.some.injEq, Prod.mk.injEq] at hs
        obtain ⟨rfl, rfl⟩ := hs
        have := key hpc'.1 hpc'.2 (tp := s.tp) (l := (s.sl t).erase x) (r := s.rq t ++ [x]) (b := s.flag t) (fun _ _ _ _ => rfl)
          ((hd.slS t).sublist List.erase_sublist) (fun _ _ => rfl)
        rw [upd_self] at this
        exact this.same
    · simp at hs
  | wait dl =>
    cases dl with
    | none =>
      simp only [act, Option.some.injEq, Prod.mk.injEq] at hs
      obtain ⟨rfl, rfl⟩ := hs
      have := key (hpc (.parking (s.epoch x + 1))).1 (hpc _).2 (tp := s.tp) (l := s.sl t) (r := s.rq t) (b := s.flag t) (fun _ _ _ _ => rfl) (hd.slS t) (fun _ _ => rfl)
      simp only [upd_self] at this
      exact this.same
    | some d =>
      simp only [act, Option.some.injEq, Prod.mk.injEq] at hs
      obtain ⟨rfl, rfl⟩ := hs
      have htp : ∀ u, ∀ z ∈ s.sl u, set s.tp x d z = s.tp z := fun u z hz => set_other _ _ (by rintro rfl; exact hns u hz)
      have := key (hpc (.parking (s.epoch x + 1))).1 (hpc _).2 (tp := set s.tp x d) (l := insertBy (set s.tp x d) x (s.sl t)) (r := s.rq t) (b := s.flag t)
        (fun u _ => htp u) (sorted_insertBy ((hd.slS t).imp_of_mem (by intro a b ha hb hab; rw [htp t a ha, htp t b hb]; exact hab))) (fun _ _ => rfl)
      simp only [upd_self] at this
      exact this.same
  | sleep d =>
    simp only [act, Option.some.injEq, Prod.mk.injEq] at hs
    obtain ⟨rfl, rfl⟩ := hs
    have htp : ∀ u, ∀ z ∈ s.sl u, set s.tp x d z = s.tp z := fun u z hz => set_other _ _ (by rintro rfl; exact hns u hz)
    have := key (hpc (.parking (s.epoch x + 1))).1 (hpc _).2 (tp := set s.tp x d) (l := insertBy (set s.tp x d) x (s.sl t)) (r := s.rq t) (b := s.flag t)
      (fun u _ => htp u) (sorted_insertBy ((hd.slS t).imp_of_mem (by intro a b ha hb hab; rw [htp t a ha, htp t b hb]; exact hab))) (fun _ _ => rfl)
    simp only [upd_self] at this
    exact this.same
  | wake y ep =>
    simp only [act] at hs
    split at hs
    · rename_i h1
      split at hs
      · rename_i h2
        have hy : s.pc y = .blocked ep := by
          subst h2
          rcases hC.pubE y h1.1 with h3 | h3
          · exact absurd h3 h1.2
          · exact h3
        have hpc' : ∀ q, (q = s.pc x ∨ ∃ w, q = .push w) → (∀ u, set (set s.pc y .user) x q (.disp u) = s.pc (.disp u)) ∧
            ∀ z u, s.pc z = .notify u ∨ s.pc z = .signal u → set (set s.pc y .user) x q z = s.pc z := by
          intro q hq
          refine ⟨fun u => ?_, fun z u hz => ?_⟩
          · have : y ≠ .disp u := (hC.pubB y ep h1.1).2 u
            rw [set_other _ _ (Ne.symm (hx u)), set_other _ _ (Ne.symm this)]
          · have h3 : z ≠ y := by rintro rfl; simp [hy] at hz
            have h4 : z ≠ x := by rintro rfl; simp [hu] at hz
            rw [set_other _ _ h4, set_other _ _ h3]
        split at hs
        · rename_i h3
          simp only [schedule, Option.some.injEq, Prod.mk.injEq] at hs
          obtain ⟨rfl, rfl⟩ := hs
          have hyx : x ≠ y := by rintro rfl; simp [hu] at hy
          have := key (hpc' (s.pc x) (.inl rfl)).1 (hpc' (s.pc x) (.inl rfl)).2 (tp := s.tp) (l := (s.sl t).erase y) (r := s.rq t ++ [y]) (b := s.flag t) (fun _ _ _ _ => rfl)
            ((hd.slS t).sublist List.erase_sublist) (fun _ _ => rfl)
          rw [upd_self, show set (set s.pc y .user) x (s.pc x) = set s.pc y .user from ?_] at this
          · exact this.same
          · funext z; simp only [set_apply]; split
            · subst_vars; simp [hyx]
            · rfl
        · simp only [Option.some.injEq, Prod.mk.injEq] at hs
          obtain ⟨rfl, rfl⟩ := hs
          have := key (hpc' (.push y) (.inr ⟨_, rfl⟩)).1 (hpc' (.push y) (.inr ⟨_, rfl⟩)).2 (tp := s.tp) (l := s.sl t) (r := s.rq t) (b := s.flag t) (fun _ _ _ _ => rfl) (hd.slS t) (fun _ _ => rfl)
          simp only [upd_self] at this
          exact this.same
      · simp only [Option.some.injEq, Prod.mk.injEq] at hs
        obtain ⟨rfl, rfl⟩ := hs
        exact hd
    · simp at hs
  | finish =>
    cases x with
    | work n =>
      simp only [act, Option.some.injEq, Prod.mk.injEq] at hs
      obtain ⟨rfl, rfl⟩ := hs
      have := key (hpc .leaving).1 (hpc .leaving).2 (tp := s.tp) (l := s.sl t) (r := s.rq t) (b := s.flag t) (fun _ _ _ _ => rfl) (hd.slS t) (fun _ _ => rfl)
      simp only [upd_self] at this
      exact this.same
    | _ => simp [act] at hs
  | setAlgo =>
    simp only [act, Option.some.injEq, Prod.mk.injEq, transfer_eq, List.nil_append] at hs
    obtain ⟨rfl, rfl⟩ := hs
    have := key (pc := s.pc) (fun _ => rfl) (fun _ _ _ => rfl) (tp := s.tp) (l := s.sl t) (r := s.rq t) (b := false) (fun _ _ _ _ => rfl) (hd.slS t) (fun _ _ => rfl)
    simpa only [upd_self] using this
  | exit =>
    simp only [act] at hs
    split at hs
    · simp only [Option.some.injEq, Prod.mk.injEq] at hs
      obtain ⟨rfl, rfl⟩ := hs
      have := key (hpc .closing).1 (hpc .closing).2 (tp := s.tp) (l := s.sl t) (r := s.rq t) (b := s.flag t) (fun _ _ _ _ => rfl) (hd.slS t)
        (sd := upd s.sd t true) (fun u hu => by simp [hu])
      simpa only [upd_self] using this
    · simp at hs

theorem id_push (hd : ID s) (hx : ∀ u, x ≠ .disp u) (hp : s.pc x = .push y) {u : Tid} :
    ID { s with pc := set s.pc x (.notify u), rr := upd s.rr u (s.rr u ++ [y]) } := by
  obtain ⟨d1, d2, d3, d4, d5, d6, d7⟩ := hd
  have hx' : ∀ u, Cx.disp u ≠ x := fun u => Ne.symm (hx u)
  constructor
  all_goals simp only [upd_apply, set_apply, hx', if_false]
  all_goals try assumption
  · intro w h1 h2
    by_cases hw : w = u
    · subst hw; exact .inr ⟨x, by simp⟩
    · simp only [hw, if_false] at h1
      rcases d4 w h1 h2 with h3 | ⟨z, h3⟩
      · exact .inl h3
      · exact .inr ⟨z, by grind⟩
  · intro w dl h1 h2
    rcases d5 w dl h1 h2 with h3 | ⟨z, h3⟩
    · exact .inl h3
    · exact .inr ⟨z, by grind⟩

theorem id_notify (hd : ID s) (hx : ∀ u, x ≠ .disp u) {u : Tid} (hp : s.pc x = .notify u) :
    ID { s with pc := set s.pc x (.signal u), flag := upd s.flag u true } := by
  obtain ⟨d1, d2, d3, d4, d5, d6, d7⟩ := hd
  have hx' : ∀ u, Cx.disp u ≠ x := fun u => Ne.symm (hx u)
  constructor
  all_goals simp only [upd_apply, set_apply, hx', if_false]
  all_goals try assumption
  · intro w h1 h2
    by_cases hw : w = u
    · subst hw; simp
    · simp only [hw, if_false]
      rcases d4 w h1 h2 with h3 | ⟨z, h3⟩
      · exact .inl h3
      · exact .inr ⟨z, by grind⟩
  · intro w dl h1 h2
    by_cases hw : w = u
    · subst hw; exact .inr ⟨x, by simp⟩
    · simp only [hw, if_false] at h2
      rcases d5 w dl h1 h2 with h3 | ⟨z, h3⟩
      · exact .inl h3
      · exact .inr ⟨z, by grind⟩
  · intro w h1 h2; have := d6 w h1 h2; split <;> simp_all

theorem id_signal (hd : ID s) (hx : ∀ u, x ≠ .disp u) {u : Tid} (hp : s.pc x = .signal u) :
    ID { s with pc := set s.pc x .user, sig := upd s.sig u true } := by
  obtain ⟨d1, d2, d3, d4, d5, d6, d7⟩ := hd
  have hx' : ∀ u, Cx.disp u ≠ x := fun u => Ne.symm (hx u)
  constructor
  all_goals simp only [upd_apply, set_apply, hx', if_false]
  all_goals try assumption
  · intro w h1 h2
    rcases d4 w h1 h2 with h3 | ⟨z, h3⟩
    · exact .inl h3
    · exact .inr ⟨z, by grind⟩
  · intro w dl h1 h2
    by_cases hw : w = u
    · subst hw; simp
    · rcases d5 w dl h1 h2 with h3 | ⟨z, h3⟩
      · exact .inl (by simp [hw, h3])
      · exact .inr ⟨z, by grind⟩

/-- Notifying a thread that has gone. -/
theorem id_gone (hA : IA s) (hd : ID s) (hx : ∀ u, x ≠ .disp u) {u : Tid} (hp : s.pc x = .notify u ∨ s.pc x = .signal u) (hg : s.gone u) :
    ID { s with pc := set s.pc x .user } := by
  have h1 : s.pc (.disp u) = .dead := (hA.dispD u).2 (.inr ((hA.gone u).1 hg))
  obtain ⟨d1, d2, d3, d4, d5, d6, d7⟩ := hd
  have hx' : ∀ u, Cx.disp u ≠ x := fun u => Ne.symm (hx u)
  constructor
  all_goals simp only [set_apply, hx', if_false]
  all_goals try assumption
  · intro w h2 h3
    have hw : w ≠ u := by rintro rfl; simp [h1, Pc.past] at h3
    rcases d4 w h2 h3 with h3 | ⟨z, h3⟩
    · exact .inl h3
    · exact .inr ⟨z, by grind⟩
  · intro w dl h2 h3
    have hw : w ≠ u := by rintro rfl; simp [h1] at h2
    rcases d5 w dl h2 h3 with h3 | ⟨z, h3⟩
    · exact .inl h3
    · exact .inr ⟨z, by grind⟩

/-- A step of the dispatcher of thread `t`, which goes to `p`. -/
theorem ID.own (hd : ID s) (hp0 : (s.pc (.disp t)).disp) {p : Pc} {l r q : List Cx} {b g : Bool} {pc : Cx → Pc}
    (hpt : pc (.disp t) = p) (hpc : ∀ u ≠ t, pc (.disp u) = s.pc (.disp u))
    (hn : ∀ z u, s.pc z = .notify u ∨ s.pc z = .signal u → pc z = s.pc z)
    (hl : l.Pairwise (fun a b => s.tp a ≤ s.tp b)) (hc : ∀ n, p = .timers n → n ≤ s.now)
    (hi : ∀ dl, p.wait = some dl → r = [] ∧ dl = l.head?.map s.tp)
    (hr : q ≠ [] → p.past → b ∨ ∃ z, pc z = .notify t)
    (hs : ∀ dl, p = .cnd dl → b → g ∨ ∃ z, pc z = .signal t)
    (hf : s.sd t → p.loop → b) (hsc : ∀ dl, s.sd t → p ≠ .cnd dl) :
    ID { s with pc := pc, sl := upd s.sl t l, rq := upd s.rq t r, rr := upd s.rr t q, flag := upd s.flag t b, sig := upd s.sig t g } := by
  obtain ⟨d1, d2, d3, d4, d5, d6, d7⟩ := hd
  constructor
  all_goals simp only [upd_apply]
  · intro u; split
    · exact hl
    · exact d1 u
  · intro u n; by_cases hu : u = t
    · subst hu; rw [hpt]; exact hc n
    · rw [hpc u hu]; exact d2 u n
  · intro u dl; by_cases hu : u = t
    · subst hu; simp only [hpt, if_true]; exact hi dl
    · simp only [hpc u hu, hu, if_false]; exact d3 u dl
  · intro u; by_cases hu : u = t
    · subst hu; simp only [hpt, if_true]; exact hr
    · simp only [hpc u hu, hu, if_false]
      intro h1 h2
      rcases d4 u h1 h2 with h3 | ⟨z, h3⟩
      · exact .inl h3
      · exact .inr ⟨z, by rw [hn z u (.inl h3)]; exact h3⟩
  · intro u dl; by_cases hu : u = t
    · subst hu; simp only [hpt, if_true]; exact hs dl
    · simp only [hpc u hu, hu, if_false]
      intro h1 h2
      rcases d5 u dl h1 h2 with h3 | ⟨z, h3⟩
      · exact .inl h3
      · exact .inr ⟨z, by rw [hn z u (.inr h3)]; exact h3⟩
  · intro u; by_cases hu : u = t
    · subst hu; simp only [hpt, if_true]; exact hf
    · simp only [hpc u hu, hu, if_false]; exact d6 u
  · intro u dl; by_cases hu : u = t
    · subst hu; rw [hpt]; exact hsc dl
    · rw [hpc u hu]; exact d7 u dl

theorem id_run (h : Inv s) (hd : ID s) (ha : s.active t = some x) (hs : run s t x = some (s', o)) : ID s' := by
  have hA := h.a
  have hB := h.b
  have hC := h.c
  have hh := hA.actHome _ _ ha
  have hdp : ∀ p, s.pc x = p → p.disp → x = .disp t := by
    intro p hp hpd
    cases x with
    | disp u => simp at hh; rw [hh]
    | main u => have := hA.kMain u; simp_all
    | work n => have := hA.kWork n; simp_all
  have hnd : ∀ p, s.pc x = p → p.disp = false → ∀ u, x ≠ .disp u := by
    rintro p hp hpd u rfl
    have := hA.kDisp u
    have := hA.actPc _ _ ha
    cases p <;> simp_all [Pc.disp, Pc.busy]
  have key := @ID.other s t x hA hd ha
  have hpx : ∀ q, (∀ u, x ≠ .disp u) → (∀ u, s.pc x ≠ .notify u ∧ s.pc x ≠ .signal u) →
      (∀ u, set s.pc x q (.disp u) = s.pc (.disp u)) ∧ ∀ z u, s.pc z = .notify u ∨ s.pc z = .signal u → set s.pc x q z = s.pc z := by
    intro q h1 h2
    refine ⟨fun u => set_other _ _ (Ne.symm (h1 u)), fun z u hz => ?_⟩
    simp only [set_apply]; split
    · subst_vars; have := h2 u; simp_all
    · rfl
  unfold run at hs
  split at hs <;> rename_i hp
  · -- yielding
    rcases leave_some hs with ⟨-, rfl, -⟩ | ⟨y, l, h0, rfl, rfl⟩
    · exact hd
    · have h1 := hpx .user (hnd _ hp rfl) (by simp [hp])
      have := key (hnd _ hp rfl t) h1.1 h1.2 (tp := s.tp) (l := (s.sl t).erase x) (r := l ++ [x]) (b := s.flag t) (fun _ _ _ _ => rfl)
            ((hd.slS t).sublist List.erase_sublist) (fun _ _ => rfl)
      simp only [schedule, upd_same, upd_upd']
      rw [upd_self] at this
      exact this.same
  · -- parking
    rename_i ep
    rcases leave_some hs with ⟨-, rfl, -⟩ | ⟨y, l, h0, rfl, rfl⟩
    · exact hd
    · have h1 := hpx (.blocked ep) (hnd _ hp rfl) (by simp [hp])
      have := key (hnd _ hp rfl t) h1.1 h1.2 (tp := s.tp) (l := s.sl t) (r := l) (b := s.flag t) (fun _ _ _ _ => rfl) (hd.slS t) (fun _ _ => rfl)
      simp only [upd_self] at this
      exact this.same
  · -- leaving
    rcases leave_some hs with ⟨-, rfl, -⟩ | ⟨y, l, h0, rfl, rfl⟩
    · exact hd
    · have h1 := hpx .dead (hnd _ hp rfl) (by simp [hp])
      have := key (hnd _ hp rfl t) h1.1 h1.2 (tp := s.tp) (l := s.sl t) (r := l) (b := s.flag t) (fun _ _ _ _ => rfl) (hd.slS t) (fun _ _ => rfl)
      simp only [upd_self] at this
      exact this.same
  · -- closing
    rcases leave_some hs with ⟨-, rfl, -⟩ | ⟨y, l, h0, rfl, rfl⟩
    · exact hd
    · have h1 := hpx .closed (hnd _ hp rfl) (by simp [hp])
      have := key (hnd _ hp rfl t) h1.1 h1.2 (tp := s.tp) (l := s.sl t) (r := l) (b := s.flag t) (fun _ _ _ _ => rfl) (hd.slS t) (fun _ _ => rfl)
      simp only [upd_self] at this
      exact this.same
  · -- push
    rename_i y
    simp only [not_gone h (hB.ps x y hp).1] at hs
    split at hs
    · contradiction
    · simp only [Option.some.injEq, Prod.mk.injEq] at hs
      obtain ⟨rfl, rfl⟩ := hs
      exact id_push hd (hnd _ hp rfl) hp
  · -- notify
    rename_i u
    split at hs <;> simp only [Option.some.injEq, Prod.mk.injEq] at hs <;> obtain ⟨rfl, rfl⟩ := hs
    · rename_i hg; exact id_gone hA hd (hnd _ hp rfl) (.inl hp) hg
    · exact id_notify hd (hnd _ hp rfl) hp
  · -- signal
    rename_i u
    split at hs <;> simp only [Option.some.injEq, Prod.mk.injEq] at hs <;> obtain ⟨rfl, rfl⟩ := hs
    · rename_i hg; exact id_gone hA hd (hnd _ hp rfl) (.inr hp) hg
    · exact id_signal hd (hnd _ hp rfl) hp
  all_goals try (have hx := hdp _ hp rfl; subst hx)
  all_goals try (
    have hpt : ∀ q, set s.pc (.disp t) q (.disp t) = q ∧ (∀ u ≠ t, set s.pc (.disp t) q (.disp u) = s.pc (.disp u)) ∧
        ∀ z u, s.pc z = .notify u ∨ s.pc z = .signal u → set s.pc (.disp t) q z = s.pc z := by
      intro q
      refine ⟨by simp, fun u hu => by simp [set_apply, hu], fun z u hz => ?_⟩
      simp only [set_apply]; split
      · subst_vars; rw [hp] at hz; simp at hz
      · rfl
    have own := fun p0 => @ID.own s t hd (by rw [hp]; rfl) p0)
  · -- top
    have key : ∀ fl : Bool, (s.sd t → fl) → ID { s with flag := upd s.flag t fl, tq := upd s.tq t [], pc := set s.pc (.disp t) .collect } := by
      intro fl hfl
      have := own .collect (l := s.sl t) (r := s.rq t) (q := s.rr t) (b := fl) (g := s.sig t) (hpt _).1 (hpt _).2.1 (hpt _).2.2 (hd.slS t)
        (by simp) (by simp [Pc.wait]) (by simp [Pc.past]) (by simp) (fun h _ => hfl h) (by simp)
      simp only [upd_self] at this
      exact this.same
    split at hs
    · rename_i hsd
      split at hs
      · simp only [Option.some.injEq, Prod.mk.injEq] at hs
        obtain ⟨rfl, rfl⟩ := hs
        have := own .last (l := s.sl t) (r := s.rq t) (q := s.rr t) (b := true) (g := s.sig t) (hpt _).1 (hpt _).2.1 (hpt _).2.2 (hd.slS t)
          (by simp) (by simp [Pc.wait]) (by simp) (by simp) (by simp) (by simp)
        simpa only [upd_self] using this
      · simp only [release, Option.some.injEq, Prod.mk.injEq] at hs
        obtain ⟨rfl, rfl⟩ := hs
        exact key true (by simp)
    · rename_i hsd
      simp only [release, Option.some.injEq, Prod.mk.injEq] at hs
      obtain ⟨rfl, rfl⟩ := hs
      have := key (s.flag t) (by simp [hsd])
      rwa [upd_self] at this
  · -- collect
    simp only [scheduleAll_eq, Option.some.injEq, Prod.mk.injEq] at hs
    obtain ⟨rfl, rfl⟩ := hs
    have := own .clock (l := (s.rr t).foldl List.erase (s.sl t)) (r := s.rq t ++ s.rr t) (q := []) (b := s.flag t) (g := s.sig t) (hpt _).1 (hpt _).2.1 (hpt _).2.2
      (sorted_foldl_erase (hd.slS t)) (by simp) (by simp [Pc.wait]) (by simp) (by simp) (fun h _ => hd.sdf t h (by rw [hp]; rfl)) (by simp)
    simpa only [upd_self] using this
  · -- clock
    simp only [Option.some.injEq, Prod.mk.injEq] at hs
    obtain ⟨rfl, rfl⟩ := hs
    have := own (.timers s.now) (l := s.sl t) (r := s.rq t) (q := s.rr t) (b := s.flag t) (g := s.sig t) (hpt _).1 (hpt _).2.1 (hpt _).2.2 (hd.slS t)
      (by simp) (by simp [Pc.wait]) (fun h1 _ => (hd.rem t h1 (by rw [hp]; rfl)).imp_right fun ⟨z, hz⟩ => ⟨z, by rw [(hpt _).2.2 z t (.inl hz)]; exact hz⟩)
      (by simp) (fun h _ => hd.sdf t h (by rw [hp]; rfl)) (by simp)
    simpa only [upd_self] using this
  · -- timers
    rename_i n
    have kp : ID { s with pc := set s.pc (.disp t) .pick } := by
      have := own .pick (l := s.sl t) (r := s.rq t) (q := s.rr t) (b := s.flag t) (g := s.sig t) (hpt _).1 (hpt _).2.1 (hpt _).2.2 (hd.slS t)
        (by simp) (by simp [Pc.wait]) (fun h1 _ => (hd.rem t h1 (by rw [hp]; rfl)).imp_right fun ⟨z, hz⟩ => ⟨z, by rw [(hpt _).2.2 z t (.inl hz)]; exact hz⟩)
        (by simp) (fun h _ => hd.sdf t h (by rw [hp]; rfl)) (by simp)
      simpa only [upd_self] using this
    split at hs
    · simp only [Option.some.injEq, Prod.mk.injEq] at hs
      obtain ⟨rfl, rfl⟩ := hs
      exact kp
    · rename_i y l hl
      have hsl : l.Pairwise (fun a b => s.tp a ≤ s.tp b) := by have := hd.slS t; rw [hl] at this; exact (List.pairwise_cons.1 this).2
      split at hs
      · split at hs
        · rename_i he
          have hy := hC.slH t y (by simp [hl])
          have hyp : s.pc y = .blocked (s.epoch y) := by
            rcases hC.slE t y (by simp [hl]) he.symm with h2 | h2
            · have := hA.busyAct y (by rw [h2]; rfl)
              rw [hy.1, ha] at this
              cases this
              rw [hp] at h2; cases h2
            · exact h2
          have hyd : ∀ u, Cx.disp u ≠ y := by
            rintro u rfl
            have := hA.kDisp u; rw [hyp] at this; simp [Pc.disp] at this
          have hn : ∀ z u, s.pc z = .notify u ∨ s.pc z = .signal u → set s.pc y .user z = s.pc z := by
            intro z u hz; simp only [set_apply]; split
            · subst_vars; rw [hyp] at hz; simp at hz
            · rfl
          simp only [schedule, upd_same, upd_upd', Option.some.injEq, Prod.mk.injEq] at hs
          obtain ⟨rfl, rfl⟩ := hs
          have := own (.timers n) (l := l.erase y) (r := s.rq t ++ [y]) (q := s.rr t) (b := s.flag t) (g := s.sig t) (pc := set s.pc y .user)
            (by rw [set_other _ _ (hyd t)]; exact hp) (fun u _ => by rw [set_other _ _ (hyd u)]) hn (hsl.sublist List.erase_sublist)
            (fun m hm => by cases hm; exact hd.clk t n hp) (by simp [Pc.wait])
            (fun h1 _ => (hd.rem t h1 (by rw [hp]; rfl)).imp_right fun ⟨z, hz⟩ => ⟨z, by rw [hn z t (.inl hz)]; exact hz⟩)
            (by simp) (fun h _ => hd.sdf t h (by rw [hp]; rfl)) (by simp)
          simp only [upd_self] at this
          exact this.same
        · simp only [Option.some.injEq, Prod.mk.injEq] at hs
          obtain ⟨rfl, rfl⟩ := hs
          have := own (.timers n) (l := l) (r := s.rq t) (q := s.rr t) (b := s.flag t) (g := s.sig t) (pc := s.pc)
            hp (fun u _ => rfl) (fun _ _ _ => rfl) hsl
            (fun m hm => by cases hm; exact hd.clk t n hp) (by simp [Pc.wait])
            (fun h1 _ => (hd.rem t h1 (by rw [hp]; rfl)))
            (by simp) (fun h _ => hd.sdf t h (by rw [hp]; rfl)) (by simp)
          simpa only [upd_self] using this
      · simp only [Option.some.injEq, Prod.mk.injEq] at hs
        obtain ⟨rfl, rfl⟩ := hs
        exact kp
  · -- pick
    split at hs
    · rename_i h0
      simp only [Option.some.injEq, Prod.mk.injEq] at hs
      obtain ⟨rfl, rfl⟩ := hs
      have := own (.idle ((s.sl t).head?.map s.tp)) (l := s.sl t) (r := s.rq t) (q := s.rr t) (b := s.flag t) (g := s.sig t) (hpt _).1 (hpt _).2.1 (hpt _).2.2 (hd.slS t)
        (by simp) (by simp [Pc.wait, h0]) (fun h1 _ => (hd.rem t h1 (by rw [hp]; rfl)).imp_right fun ⟨z, hz⟩ => ⟨z, by rw [(hpt _).2.2 z t (.inl hz)]; exact hz⟩)
        (by simp) (fun h _ => hd.sdf t h (by rw [hp]; rfl)) (by simp)
      simpa only [upd_self] using this
    · rcases leave_some hs with ⟨-, rfl, -⟩ | ⟨y, l, h0, rfl, rfl⟩
      · exact hd
      · have := own .top (l := (s.sl t).erase (.disp t)) (r := l ++ [.disp t]) (q := s.rr t) (b := s.flag t) (g := s.sig t) (hpt _).1 (hpt _).2.1 (hpt _).2.2
          ((hd.slS t).sublist List.erase_sublist) (by simp) (by simp [Pc.wait]) (by simp [Pc.past]) (by simp) (by simp [Pc.loop]) (by simp)
        simp only [schedule, upd_same, upd_upd']
        simp only [upd_self] at this
        exact this.same
  · -- idle
    rename_i dl
    have hi := hd.idl t dl (by rw [hp]; rfl)
    split at hs <;> simp only [Option.some.injEq, Prod.mk.injEq] at hs <;> obtain ⟨rfl, rfl⟩ := hs
    · have := own .top (l := s.sl t) (r := s.rq t) (q := s.rr t) (b := false) (g := s.sig t) (hpt _).1 (hpt _).2.1 (hpt _).2.2
          (hd.slS t) (by simp) (by simp [Pc.wait]) (by simp [Pc.past]) (by simp) (by simp [Pc.loop]) (by simp)
      simpa only [upd_self] using this
    · rename_i hf
      have := own (.cnd dl) (l := s.sl t) (r := s.rq t) (q := s.rr t) (b := s.flag t) (g := false) (hpt _).1 (hpt _).2.1 (hpt _).2.2
          (hd.slS t) (by simp) (by intro d hd'; simp only [Pc.wait, Option.some.injEq] at hd'; subst hd'; exact hi)
          (fun h1 _ => (hd.rem t h1 (by rw [hp]; rfl)).imp_right fun ⟨z, hz⟩ => ⟨z, by rw [(hpt _).2.2 z t (.inl hz)]; exact hz⟩)
          (fun _ _ h => absurd h hf) (fun h _ => hd.sdf t h (by rw [hp]; rfl)) (fun _ h _ => hf (hd.sdf t h (by rw [hp]; rfl)))
      simpa only [upd_self] using this
  · -- cnd
    rename_i dl
    have hi := hd.idl t dl (by rw [hp]; rfl)
    simp only at hs
    split at hs
    · split at hs <;> simp only [Option.some.injEq, Prod.mk.injEq] at hs <;> obtain ⟨rfl, rfl⟩ := hs
      · have := own .top (l := s.sl t) (r := s.rq t) (q := s.rr t) (b := false) (g := s.sig t) (hpt _).1 (hpt _).2.1 (hpt _).2.2
          (hd.slS t) (by simp) (by simp [Pc.wait]) (by simp [Pc.past]) (by simp) (by simp [Pc.loop]) (by simp)
        simpa only [upd_self] using this
      · rename_i hf
        have := own (.cnd dl) (l := s.sl t) (r := s.rq t) (q := s.rr t) (b := s.flag t) (g := false) (pc := s.pc) hp (fun _ _ => rfl) (fun _ _ _ => rfl)
          (hd.slS t) (by simp) (by intro d hd'; simp only [Pc.wait, Option.some.injEq] at hd'; subst hd'; exact hi)
          (fun h1 _ => (hd.rem t h1 (by rw [hp]; rfl)))
          (fun _ _ h => absurd (.inl h) hf) (by simp [Pc.loop]) (fun d h hc => hd.sdc t d h (hp.trans hc))
        simpa only [upd_self] using this
    · simp at hs
  · -- last
    simp only [release, switch, Option.some.injEq, Prod.mk.injEq] at hs
    obtain ⟨rfl, rfl⟩ := hs
    have h2 := hA.last t (.inl hp)
    have h3 := (hA.sd t).1 h2.2
    have hn : ∀ z u, s.pc z = .notify u ∨ s.pc z = .signal u → set (set s.pc (.disp t) .dead) (.main t) .ending z = s.pc z := by
      intro z u hz; simp only [set_apply]; split
      · subst_vars; rcases hz with hz | hz <;> simp [hz, Pc.shut] at h3
      · split
        · subst_vars; rw [hp] at hz; simp at hz
        · rfl
    have := own .dead (l := s.sl t) (r := s.rq t) (q := s.rr t) (b := s.flag t) (g := s.sig t) (pc := set (set s.pc (.disp t) .dead) (.main t) .ending)
      (by simp) (fun u hu => by simp [set_apply, hu]) hn (hd.slS t) (by simp) (by simp [Pc.wait]) (by simp [Pc.past]) (by simp) (by simp [Pc.loop]) (by simp)
    simp only [upd_self] at this
    exact this.same
  · -- ending
    simp only [Option.some.injEq, Prod.mk.injEq] at hs
    obtain ⟨rfl, rfl⟩ := hs
    have h1 := hpx .dead (hnd _ hp rfl) (by simp [hp])
    have := key (hnd _ hp rfl t) h1.1 h1.2 (tp := s.tp) (l := s.sl t) (r := s.rq t) (b := s.flag t) (fun _ _ _ _ => rfl) (hd.slS t) (fun _ _ => rfl)
    simp only [upd_self] at this
    exact this.same
  · simp at hs

theorem id_step {e : Event} (h : Inv s) (hd : ID s) (hs : step s e = some (s', o)) : ID s' := by
  cases e with
  | thread u =>
    simp only [step] at hs
    split at hs
    · rename_i h1
      simp only [Option.some.injEq, Prod.mk.injEq] at hs
      obtain ⟨rfl, rfl⟩ := hs
      have h2 := (h.a.born u).2 h1
      obtain ⟨d1, d2, d3, d4, d5, d6, d7⟩ := hd
      constructor
      all_goals simp only [upd_apply, set_apply]
      all_goals try assumption
      · intro w n; by_cases hw : w = u
        · subst hw; simp
        · simpa [hw] using d2 w n
      · intro w dl; by_cases hw : w = u
        · subst hw; simp [Pc.wait]
        · simpa [hw] using d3 w dl
      · intro w; by_cases hw : w = u
        · subst hw; simp [Pc.past]
        · have hw' : Cx.disp w ≠ .disp u := by simp [hw]
          simp only [hw', if_false, reduceCtorEq]
          intro h1 h2
          rcases d4 w h1 h2 with h3 | ⟨z, h3⟩
          · exact .inl h3
          · exact .inr ⟨z, by grind⟩
      · intro w dl; by_cases hw : w = u
        · subst hw; simp
        · have hw' : Cx.disp w ≠ .disp u := by simp [hw]
          simp only [hw', if_false, reduceCtorEq]
          intro h1 h2
          rcases d5 w dl h1 h2 with h3 | ⟨z, h3⟩
          · exact .inl h3
          · exact .inr ⟨z, by grind⟩
      · intro w; by_cases hw : w = u
        · subst hw; simp [Pc.loop]
        · simpa [hw] using d6 w
      · intro w dl; by_cases hw : w = u
        · subst hw; simp
        · simpa [hw] using d7 w dl
    · simp at hs
  | act u a =>
    simp only [step] at hs
    split at hs
    · rename_i z hz
      split at hs
      · rename_i hu
        exact id_act h hd hz hu hs
      · simp at hs
    · simp at hs
  | run u =>
    simp only [step] at hs
    split at hs
    · rename_i z hz
      exact id_run h hd hz hs
    · simp at hs
  | spurious u =>
    simp only [step] at hs
    split at hs
    · simp only [Option.some.injEq, Prod.mk.injEq] at hs
      obtain ⟨rfl, rfl⟩ := hs
      obtain ⟨d1, d2, d3, d4, d5, d6, d7⟩ := hd
      constructor
      all_goals try assumption
      intro w dl h1 h2
      have := d5 w dl h1 h2
      simp only [upd_apply]; split
      · simp
      · exact this
    · simp at hs
  | tick n =>
    simp only [step, Option.some.injEq, Prod.mk.injEq] at hs
    obtain ⟨rfl, rfl⟩ := hs
    obtain ⟨d1, d2, d3, d4, d5, d6, d7⟩ := hd
    constructor
    all_goals try assumption
    intro w m h1
    have := d2 w m h1
    simp only; omega

theorem reach_id {tr : List Obs} (h : Reach step init s tr) : ID s :=
  Reach.inv (fun s _ => ID s) (by constructor <;> simp [init, Pc.wait, Pc.past, Pc.loop]) (fun _ _ _ _ _ hr h hs => id_step (reach_inv hr) h hs) h

end Verif.Sch
