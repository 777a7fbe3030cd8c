import Verif.WeakFiberStep

/-!
# Fibers under weak memory: the invariant holds after every step, step by step
-/

namespace Verif.WeakFiber

open Weak

variable {s s' s1 : State} {pl pl' pl1 : Fib → Place} {ob : List Obs} {tr : List Obs} {w : Nat} {m : Mem} {a : After} {k : Ret} {f g h' n : Fib}
variable {e j v t x : Nat} {l : List Fib} {xs : List Nat} {p' : Ph} {q : List (Fib × Nat)} {o : Order}

theorem ends_carry {p : Ph} (h : p.ends = some f) : f ∈ p.carry := by
  unfold Ph.ends at h
  split at h <;> (try unfold Ret.ends at h) <;> (try split at h) <;> simp_all [Ph.carry, Ret.carry]

theorem fin_carry {p : Ph} (h : p.fin = some f) : f ∈ p.carry := by
  unfold Ph.fin at h
  split at h <;> simp_all [Ph.carry]

/-- A fiber that is with a thread and not ending has not ended. -/
theorem not_term (hs : Str s pl) (hf : f ∈ (s.ph w).carry) (he : (s.ph w).ends ≠ some f) : s.term f = false := by
  cases ht : s.term f with
  | false => rfl
  | true =>
    have h1 := hs.car w f hf
    rcases hs.term f ht with h2 | ⟨u, h2⟩
    · rw [h1] at h2; cases h2
    · have h3 := hs.car u f (ends_carry h2)
      rw [h1] at h3; cases h3
      exact absurd h2 he

theorem not_fin (hi : Inv s tr pl) (hf : f ∈ (s.ph w).carry) (he : (s.ph w).ends ≠ some f) (hn : (s.ph w).fin ≠ some f) : Obs.finished f ∉ tr := by
  rw [hi.fin]
  rintro (h1 | ⟨u, h1⟩)
  · rw [not_term hi.str hf he] at h1; cases h1
  · have h2 := hi.str.car w f hf
    have h3 := hi.str.car u f (fin_carry h1)
    rw [h2] at h3; cases h3
    exact hn h1

/-- What belongs to fiber `n` moves; it does not wait. -/
theorem Mi.shift' (hi : Mi s pl o) (w : Nat) (n : Fib) (hm : s'.mem = s.mem) (hph : s'.ph = s.ph) (hb : s'.born = s.born) (ht : s'.term = s.term)
    (hc : s'.cont = s.cont) (h1 : ∀ f, f ≠ n → s'.sched f = s.sched f ∧ pl' f = pl f) (hw : (pl n).waits = false)
    (hbase : ∀ k, base s' pl' n = some k → base s pl n = some k ∨ (Mine s w k ∧ ∃ k0, base s pl n = some k0 ∧ Mine s w k0))
    (hwk : ∀ k, (pl' n).who = some k → (pl n).who = some k ∨ (Mine s w k ∧ ∃ k0, (pl n).who = some k0 ∧ Mine s w k0)) : Mi s' pl' o := by
  refine hi.shift w n hm hph hb ht (fun f hf => ⟨(h1 f hf).1, by rw [hc], (h1 f hf).2⟩) hbase hwk ?_
  intro g k h2 _ h3
  rw [hc] at h2
  rcases hwk k h3 with h4 | ⟨h4, k0, h5, h6⟩
  · exact .inl (.cont h2 hw h4)
  · exact .inr ⟨h4, k0, .cont h2 hw h5, h6⟩

/-- Nothing that matters changes. -/
theorem Mi.same (hi : Mi s pl o) (hm : s'.mem = s.mem) (hph : s'.ph = s.ph) (hb : s'.born = s.born) (ht : s'.term = s.term)
    (hc : s'.cont = s.cont) (h1 : s'.sched = s.sched) : Mi s' pl o := by
  refine hi.keep ?_ (by rw [hm]) h1 hc ht hb
  rw [hm]
  exact Next.quiet hi.locks (fun _ _ => rfl) (fun _ _ => Nat.le_refl _) (fun l u _ => by simp only [State.hold, hph])

theorem run_upd (hp : s.ph w = p') : upd s.ph w p' = s.ph := by
  funext u; rw [upd_apply]; split
  · rename_i hu; rw [hu, hp]
  · rfl

/-! ## `join()` -/

theorem fine_jSpin (hi : Inv s tr pl) (hp : s.ph w = .jSpin f g) (hs : s.lock w (SPL g) t (.jLook f g) = some (s', ob)) : Fine s' tr ob :=
  fine_lock hi hs (lock_spl g) (fun _ => str_jSpin hi.str hp) (by simp [hp, Ph.locks]) rfl (by rw [hp]; rfl)

theorem fine_jLook (hi : Inv s tr pl) (hp : s.ph w = .jLook f g) :
    Fine (s.lib w [WQ g] (if s.term g then .jDone f g else .jArm f g)).1 tr (s.lib w [WQ g] (if s.term g then .jDone f g else .jArm f g)).2 := by
  have h1 : ∀ x ∈ [WQ g], ∃ k, Tok s pl x k ∧ Mine s w k := by
    simp only [List.mem_singleton, forall_eq]
    exact tok_wq (by simp [hp, Ph.locks])
  split
  · rename_i ht
    exact fine_lib' hi rfl rfl (str_jDone0 hi.str hp ht) hi.mi (by simp [hp, Ph.locks]) h1 rfl rfl rfl (by rw [hp]; rfl)
  · exact fine_lib' hi rfl rfl (str_jArm0 hi.str hp) hi.mi (by simp [hp, Ph.locks]) h1 rfl rfl rfl (by rw [hp]; rfl)

theorem fine_jDone (hi : Inv s tr pl) (hp : s.ph w = .jDone f g)
    (hs : { s with cont := upd s.cont f (some g) }.unlock w (SPL g) t (.run f) = some (s', ob)) : Fine s' tr ob := by
  have hg : s.term g = true := by have := hi.str.way w; rw [hp] at this; exact this
  have hc := hi.str.car w f (by simp [hp, Ph.carry])
  refine fine_unlock hi hs rfl rfl ?_ (lock_spl g) (by simp [hp, Ph.locks]) (fun _ => str_jDone hi.str hp) ?_ rfl rfl rfl (by rw [hp]; rfl)
  · refine hi.mi.shift w f rfl rfl rfl rfl (fun x hx => ⟨rfl, upd_other _ _ hx, rfl⟩) (fun k h => .inl h) (fun k h => .inl h) ?_
    intro g' k h1 _ h2
    simp only [upd_same, Option.some.injEq] at h1
    subst h1
    rw [hc] at h2
    simp only [Place.who, Option.some.injEq] at h2
    subst h2
    exact .inr ⟨mine_thr, _, .term hg, mine_of (lock_spl g) (by simp [hp, Ph.locks])⟩
  · simp [hp, Ph.locks]

theorem fine_jWaker (hi : Inv s tr pl) (hp : s.ph w = .jWaker f g e) :
    Fine (s.lib w [PRV f, WK f] (.jPush f g e)).1 tr (s.lib w [PRV f, WK f] (.jPush f g e)).2 := by
  refine fine_lib hi rfl rfl (str_jWaker hi.str hp) hi.mi (by simp [hp, Ph.locks]) ?_ ?_ ?_
  · simp only [List.mem_cons, List.not_mem_nil, or_false, forall_eq_or_imp, forall_eq]
    exact ⟨tok_here hi.str (by simp [hp, Ph.here]), tok_carry hi.str (by simp [hp, Ph.carry])⟩
  · intro f' e' k' hk
    cases hk with
    | wq g h => exact .inl (.wq g h)
    | made u h =>
      simp only [State.lib, upd_apply] at h
      split at h
      · cases h
      · exact .inl (.made u h)
    | push u h =>
      simp only [State.lib, upd_apply] at h
      split at h
      · rename_i hu; cases h; subst hu; exact .inl (.made u hp)
      · exact .inl (.push u h)
    | cas u h =>
      simp only [State.lib, upd_apply] at h
      split at h
      · cases h
      · exact .inl (.cas u h)
  · intro g'
    have := fin_same (s' := (s.lib w [PRV f, WK f] (.jPush f g e)).1) (ob := []) hi rfl rfl (by rw [hp]; rfl) (by simp) g'
    simpa using this

theorem fine_jPush (hi : Inv s tr pl) (hp : s.ph w = .jPush f g e) :
    Fine ({ s with wq := upd s.wq g (s.wq g ++ [(f, e)]), cont := upd s.cont f (some g) }.lib w
      (WQ g :: WK f :: (s.wq g).map fun q : Fib × Nat => WK q.1) (.pick (.susp f g))).1 tr
      ({ s with wq := upd s.wq g (s.wq g ++ [(f, e)]), cont := upd s.cont f (some g) }.lib w
      (WQ g :: WK f :: (s.wq g).map fun q : Fib × Nat => WK q.1) (.pick (.susp f g))).2 := by
  have hc := hi.str.car w f (by simp [hp, Ph.carry])
  have hh := hi.str.here w f (by simp [hp, Ph.here])
  have hl : Mine s w (.lock (SPL g)) := mine_of (lock_spl g) (by simp [hp, Ph.locks])
  refine fine_lib (pl1 := upd pl f (.wq g)) hi rfl rfl (str_jPush hi.str hp) ?_ (by simp [hp, Ph.locks, After.locks]) ?_ ?_ ?_
  · refine hi.mi.shift w f rfl rfl rfl rfl (fun x hx => ⟨rfl, upd_other _ _ hx, upd_other _ _ hx⟩) ?_ ?_ ?_
    · intro k h; left; simpa only [base, hh] using h
    · intro k h
      simp only [upd_same, Place.who, Option.some.injEq] at h
      subst h
      exact .inr ⟨hl, .thr w, by rw [hc]; rfl, mine_thr⟩
    · intro g' k _ h
      simp [upd_same, Place.waits] at h
  · simp only [List.mem_cons, List.mem_map, forall_eq_or_imp]
    refine ⟨⟨_, .wq g, hl⟩, ⟨_, .wk f (by rw [upd_same]; rfl), hl⟩, ?_⟩
    rintro x ⟨q, hq, rfl⟩
    refine ⟨_, .wk q.1 ?_, hl⟩
    have := (hi.str.wq g q hq).1
    rw [upd_apply]; split
    · rfl
    · rw [this]; rfl
  · intro f' e' k' hk
    cases hk with
    | wq g' h =>
      simp only [State.lib, upd_apply] at h
      split at h
      · rename_i hg; subst hg
        simp only [List.mem_append, List.mem_singleton] at h
        rcases h with h | h
        · exact .inl (.wq g' h)
        · cases h; exact .inr ⟨hl, _, .push w hp, mine_thr⟩
      · exact .inl (.wq g' h)
    | made u h =>
      simp only [State.lib, upd_apply] at h
      split at h
      · cases h
      · exact .inl (.made u h)
    | push u h =>
      simp only [State.lib, upd_apply] at h
      split at h
      · cases h
      · exact .inl (.push u h)
    | cas u h =>
      simp only [State.lib, upd_apply] at h
      split at h
      · cases h
      · exact .inl (.cas u h)
  · intro g'
    have := fin_same (s' := ({ s with wq := upd s.wq g (s.wq g ++ [(f, e)]), cont := upd s.cont f (some g) }.lib w
      (WQ g :: WK f :: (s.wq g).map fun q : Fib × Nat => WK q.1) (.pick (.susp f g))).1) (ob := []) hi rfl rfl (by rw [hp]; rfl) (by simp) g'
    simpa using this

/-! ## The switch -/

theorem qs_locks (a : After) (j l' : Nat) : l' ∈ a.locks ↔ (l' ∈ QS j :: a.locks ∧ l' ≠ QS j) := by
  cases a with
  | susp f g =>
    simp only [After.locks, List.mem_cons, List.not_mem_nil, or_false]
    exact ⟨fun h => ⟨.inr h, by rw [h]; simp⟩, fun h => h.1.resolve_left h.2⟩
  | yield f => simp [After.locks]
  | gone f => simp [After.locks]

theorem fine_qRelN (hi : Inv s tr pl) (hp : s.ph w = .qRel a j none) (hs : s.unlock w (QS j) t (.pick a) = some (s', ob)) : Fine s' tr ob :=
  fine_unlock hi hs rfl rfl hi.mi (lock_qs j) (by simp [hp, Ph.locks]) (fun _ => str_qRelN hi.str hp) (by rw [hp]; exact qs_locks a j) rfl rfl rfl (by rw [hp]; rfl)

theorem fine_qRelS (hi : Inv s tr pl) (hp : s.ph w = .qRel a j (some n)) (hs : s.unlock w (QS j) t (.att a n) = some (s', ob)) : Fine s' tr ob :=
  fine_unlock hi hs rfl rfl hi.mi (lock_qs j) (by simp [hp, Ph.locks]) (fun _ => str_qRelS hi.str hp) (by rw [hp]; exact qs_locks a j) rfl rfl rfl (by rw [hp]; rfl)

theorem fine_attP (hi : Inv s tr pl) (hp : s.ph w = .att a n) (hn : pinned n = true) : Fine { s with ph := upd s.ph w (.sw a n) } tr [] :=
  fine_idle hi (str_attP hi.str hp hn) (by simp [hp, Ph.locks]) rfl (by rw [hp]; rfl)

theorem fine_att (hi : Inv s tr pl) (hp : s.ph w = .att a n) (hn : pinned n = false) :
    Fine ({ s with sched := upd s.sched n (some w) }.lib w [WK n, PRV n] (.sw a n)).1 tr
      ({ s with sched := upd s.sched n (some w) }.lib w [WK n, PRV n] (.sw a n)).2 := by
  have hc := hi.str.car w n (by simp [hp, Ph.carry])
  have hw : s.sched n = none := by
    have := hi.str.way w; rw [hp] at this
    simpa [Way, hn] using this
  refine fine_lib' (pl1 := pl) hi rfl rfl (str_att hi.str hp hn) ?_ (by simp [hp, Ph.locks]) ?_ rfl rfl rfl (by rw [hp]; rfl)
  · refine hi.mi.shift' w n rfl rfl rfl rfl rfl (fun x hx => ⟨upd_other _ _ hx, rfl⟩) (by rw [hc]; rfl) ?_ (fun k h => .inl h)
    intro k h; left
    simpa only [base, hw, hc, upd_same, Place.who] using h
  · simp only [List.mem_cons, List.not_mem_nil, or_false, forall_eq_or_imp, forall_eq]
    exact ⟨⟨_, .wk n (by rw [hc]; rfl), mine_thr⟩, ⟨_, .prv n (by simp only [base, upd_same]), mine_thr⟩⟩

theorem fine_swS (hi : Inv s tr pl) (hp : s.ph w = .sw (.susp f g) n) :
    Fine (s.lib w [PRV n, PRV f] (.unl f g n)).1 tr (s.lib w [PRV n, PRV f] (.unl f g n)).2 := by
  refine fine_lib' hi rfl rfl (str_swS hi.str hp) hi.mi (by simp [hp, Ph.locks, After.locks]) ?_ rfl rfl rfl (by rw [hp]; rfl)
  simp only [List.mem_cons, List.not_mem_nil, or_false, forall_eq_or_imp, forall_eq]
  exact ⟨tok_here hi.str (by simp [hp, Ph.here]), tok_here hi.str (by simp [hp, Ph.here, After.prev])⟩

theorem fine_swY (hi : Inv s tr pl) (hp : s.ph w = .sw (.yield f) n) :
    Fine (s.lib w [PRV n, PRV f] (.sch f (.run n))).1 tr (s.lib w [PRV n, PRV f] (.sch f (.run n))).2 := by
  refine fine_lib' hi rfl rfl (str_swY hi.str hp) hi.mi (by simp [hp, Ph.locks, After.locks, Ret.locks]) ?_ rfl rfl rfl (by rw [hp]; rfl)
  simp only [List.mem_cons, List.not_mem_nil, or_false, forall_eq_or_imp, forall_eq]
  exact ⟨tok_here hi.str (by simp [hp, Ph.here]), tok_here hi.str (by simp [hp, Ph.here, After.prev])⟩

theorem fine_swG (hi : Inv s tr pl) (hp : s.ph w = .sw (.gone f) n) :
    Fine (s.lib w [PRV n, PRV f] (.run n)).1 tr (s.lib w [PRV n, PRV f] (.run n)).2 := by
  refine fine_lib' hi rfl rfl (str_swG hi.str hp) hi.mi (by simp [hp, Ph.locks, After.locks]) ?_ rfl rfl rfl (by rw [hp]; rfl)
  simp only [List.mem_cons, List.not_mem_nil, or_false, forall_eq_or_imp, forall_eq]
  exact ⟨tok_here hi.str (by simp [hp, Ph.here]), tok_here hi.str (by simp [hp, Ph.here, After.prev])⟩

theorem fine_unl (hi : Inv s tr pl) (hp : s.ph w = .unl f g n) (hs : s.unlock w (SPL g) t (.own f n) = some (s', ob)) : Fine s' tr ob :=
  fine_unlock hi hs rfl rfl hi.mi (lock_spl g) (by simp [hp, Ph.locks]) (fun _ => str_unl hi.str hp) (by simp [hp, Ph.locks]) rfl rfl rfl (by rw [hp]; rfl)

theorem fine_ownF (hi : Inv s tr pl) (hp : s.ph w = .own f n) : Fine (s.lib w [PRV f] (.run n)).1 tr (s.lib w [PRV f] (.run n)).2 := by
  refine fine_lib' hi rfl rfl (str_ownF hi.str hp) hi.mi (by simp [hp, Ph.locks]) ?_ rfl rfl rfl (by rw [hp]; rfl)
  simp only [List.mem_singleton, forall_eq]
  exact tok_here hi.str (by simp [hp, Ph.here])

/-! ## `schedule()` -/

theorem Ret.ph_bare (k : Ret) : k.ph.bare = true := by cases k <;> rfl
theorem Ret.ph_fin (k : Ret) : k.ph.fin = none := by cases k <;> rfl

theorem fine_schO (hi : Inv s tr pl) (hp : s.ph w = .sch h' k) :
    Fine ({ s with own := upd s.own w (s.own w ++ [h']) }.lib w [PRV h'] k.ph).1 tr
      ({ s with own := upd s.own w (s.own w ++ [h']) }.lib w [PRV h'] k.ph).2 := by
  have hc := hi.str.car w h' (by simp [hp, Ph.carry])
  have hh := hi.str.here w h' (by simp [hp, Ph.here])
  refine fine_lib' (pl1 := upd pl h' (.own w)) hi rfl rfl (str_schO hi.str hp) ?_ (by intro l'; rw [k.ph_locks, hp]; rfl) ?_ k.ph_bare rfl rfl
    (by rw [hp, k.ph_fin]; rfl)
  · refine hi.mi.shift' w h' rfl rfl rfl rfl rfl (fun x hx => ⟨rfl, upd_other _ _ hx⟩) (by rw [hc]; rfl) ?_ ?_
    · intro k h; left; simpa only [base, hh] using h
    · intro k h; left; simpa only [hc, upd_same, Place.who] using h
  · simp only [List.mem_singleton, forall_eq]
    exact ⟨_, .prv h' (by simp only [base, hh]), mine_thr⟩

theorem fine_schP (hi : Inv s tr pl) (hp : s.ph w = .sch h' k) (hn : pinned h' = true) (hj : target (s.alg w) w h' = some j) :
    Fine { s with ph := upd s.ph w (.qSpin h' k j) } tr [] :=
  fine_idle hi (str_schP hi.str hp hn hj) (by simp [hp, Ph.locks]) rfl (by rw [hp]; rfl)

theorem fine_sch (hi : Inv s tr pl) (hp : s.ph w = .sch h' k) (hn : pinned h' = false) :
    Fine ({ s with sched := upd s.sched h' none }.lib w [WK h', PRV h'] (.qSpin h' k j)).1 tr
      ({ s with sched := upd s.sched h' none }.lib w [WK h', PRV h'] (.qSpin h' k j)).2 := by
  have hc := hi.str.car w h' (by simp [hp, Ph.carry])
  have hh := hi.str.here w h' (by simp [hp, Ph.here])
  refine fine_lib' (pl1 := pl) hi rfl rfl (str_sch hi.str hp hn) ?_ (by simp [hp, Ph.locks]) ?_ rfl rfl rfl (by rw [hp]; rfl)
  · refine hi.mi.shift' w h' rfl rfl rfl rfl rfl (fun x hx => ⟨upd_other _ _ hx, rfl⟩) (by rw [hc]; rfl) ?_ (fun k h => .inl h)
    intro k h; left
    simpa only [base, hh, hc, upd_same, Place.who] using h
  · simp only [List.mem_cons, List.not_mem_nil, or_false, forall_eq_or_imp, forall_eq]
    exact ⟨⟨_, .wk h' (by rw [hc]; rfl), mine_thr⟩, ⟨_, .prv h' (by simp only [base, upd_same, hc, Place.who]), mine_thr⟩⟩

theorem fine_qSpin (hi : Inv s tr pl) (hp : s.ph w = .qSpin h' k j) (hs : s.lock w (QS j) t (.qPush h' k j) = some (s', ob)) : Fine s' tr ob :=
  fine_lock hi hs (lock_qs j) (fun _ => str_qSpin hi.str hp) (by intro l'; simp only [hp, Ph.locks, List.mem_cons]; exact or_comm) rfl (by rw [hp]; rfl)

theorem fine_qPush (hi : Inv s tr pl) (hp : s.ph w = .qPush h' k j) :
    Fine ({ s with sq := upd s.sq j (s.sq j ++ [h']) }.lib w [QL j] (.qFree k j)).1 tr
      ({ s with sq := upd s.sq j (s.sq j ++ [h']) }.lib w [QL j] (.qFree k j)).2 := by
  have hc := hi.str.car w h' (by simp [hp, Ph.carry])
  have hl : Mine s w (.lock (QS j)) := mine_of (lock_qs j) (by simp [hp, Ph.locks])
  refine fine_lib' (pl1 := upd pl h' (.sq j)) hi rfl rfl (str_qPush hi.str hp) ?_ (by simp [hp, Ph.locks]) ?_ rfl rfl rfl (by rw [hp]; rfl)
  · have hwk : ∀ k, (upd pl h' (.sq j) h').who = some k → (pl h').who = some k ∨ (Mine s w k ∧ ∃ k0, (pl h').who = some k0 ∧ Mine s w k0) := by
      intro k h
      simp only [upd_same, Place.who, Option.some.injEq] at h
      subst h
      exact .inr ⟨hl, .thr w, by rw [hc]; rfl, mine_thr⟩
    refine hi.mi.shift' w h' rfl rfl rfl rfl rfl (fun x hx => ⟨rfl, upd_other _ _ hx⟩) (by rw [hc]; rfl) ?_ hwk
    intro k h
    unfold base at h ⊢
    dsimp only at h
    split at h
    · exact .inl h
    · exact hwk k h
  · simp only [List.mem_singleton, forall_eq]
    exact ⟨_, .ql j, hl⟩

theorem fine_qFree (hi : Inv s tr pl) (hp : s.ph w = .qFree k j) (hs : s.unlock w (QS j) t k.ph = some (s', ob)) : Fine s' tr ob := by
  refine fine_unlock hi hs rfl rfl hi.mi (lock_qs j) (by simp [hp, Ph.locks]) (fun _ => str_qFree hi.str hp) ?_ k.ph_bare rfl rfl (by rw [hp, k.ph_fin]; rfl)
  intro l'
  rw [hp, k.ph_locks]
  cases k with
  | note f =>
    simp only [Ph.locks, Ret.locks, List.mem_cons, List.not_mem_nil, or_false]
    exact ⟨fun h => ⟨.inr h, by rw [h]; simp⟩, fun h => h.1.resolve_left h.2⟩
  | run f => simp [Ph.locks, Ret.locks]
  | fetch f l => simp [Ph.locks, Ret.locks]

/-! ## `terminate()` -/

theorem fine_tSpin (hi : Inv s tr pl) (hp : s.ph w = .tSpin f) (hs : s.lock w (SPL f) t (.tMark f) = some (s', ob)) : Fine s' tr ob :=
  fine_lock hi hs (lock_spl f) (fun _ => str_tSpin hi.str hp) (by simp [hp, Ph.locks]) rfl (by rw [hp]; rfl)

theorem fine_tMark (hi : Inv s tr pl) (hp : s.ph w = .tMark f) :
    Fine ({ s with term := upd s.term f true }.lib w [WQ f] (.tNote f)).1 tr ({ s with term := upd s.term f true }.lib w [WQ f] (.tNote f)).2 := by
  have hh := hi.str.here w f (by simp [hp, Ph.here])
  have hl : Mine s w (.lock (SPL f)) := mine_of (lock_spl f) (by simp [hp, Ph.locks])
  refine fine_lib (pl1 := pl) hi rfl rfl (str_tMark hi.str hp) ?_ (by simp [hp, Ph.locks]) ?_ ?_ ?_
  · refine hi.mi.next w [] (Next.quiet hi.mi.locks (fun _ _ => rfl) (fun _ _ => Nat.le_refl _) (fun _ _ _ => Iff.rfl)) (fun _ _ => rfl) (by simp) (by simp)
      (by simp) ?_ ?_ (fun f _ h => by simpa using h)
    · intro x k _ hk
      left
      cases hk with
      | prv f h => exact .prv f h
      | wk f h => exact .wk f h
      | wq f => exact .wq f
      | rq f => exact .rq f
      | ql f => exact .ql f
    · intro f' k hk
      cases hk with
      | base h => exact .inl (.base h)
      | cont h1 h2 h3 => exact .inl (.cont h1 h2 h3)
      | term h =>
        simp only [upd_apply] at h
        split at h
        · rename_i he; subst he; exact .inr ⟨hl, .thr w, .base (by simp only [base, hh]), mine_thr⟩
        · exact .inl (.term h)
  · simp only [List.mem_singleton, forall_eq]
    exact ⟨_, .wq f, hl⟩
  · intro f' e' k' hk
    exact .inl (armed_same (s := s) (s' := ({ s with term := upd s.term f true }.lib w [WQ f] (.tNote f)).1) (w := w) (p' := .tNote f) rfl rfl rfl hk)
  · intro g
    rw [hi.fin g]
    simp only [State.lib, upd_apply]
    constructor
    · rintro (h | ⟨u, h⟩)
      · left; split <;> simp_all
      · by_cases hu : u = w
        · subst hu; rw [hp] at h; left; simp only [Ph.fin, Option.some.injEq] at h; simp [h]
        · right; exact ⟨u, by rw [if_neg hu]; exact h⟩
    · rintro (h | ⟨u, h⟩)
      · split at h
        · rename_i he; subst he; right; exact ⟨w, by rw [hp]; rfl⟩
        · exact .inl h
      · split at h
        · cases h
        · exact .inr ⟨u, h⟩

theorem fine_tNoteN (hi : Inv s tr pl) (hp : s.ph w = .tNote f) : Fine (s.lib w [WQ f] (.tRel f)).1 tr (s.lib w [WQ f] (.tRel f)).2 := by
  refine fine_lib' hi rfl rfl (str_tNoteN hi.str hp) hi.mi (by simp [hp, Ph.locks]) ?_ rfl rfl rfl (by rw [hp]; rfl)
  simp only [List.mem_singleton, forall_eq]
  exact tok_wq (by simp [hp, Ph.locks])

theorem fine_tNote (hi : Inv s tr pl) (hp : s.ph w = .tNote f) (hq : s.wq f = (h', e) :: q) :
    Fine ({ s with wq := upd s.wq f q }.lib w [WQ f, WK h'] (.tCas f h' e)).1 tr ({ s with wq := upd s.wq f q }.lib w [WQ f, WK h'] (.tCas f h' e)).2 := by
  have hm : (h', e) ∈ s.wq f := by rw [hq]; simp
  obtain ⟨h1, ⟨v, h2⟩, h3⟩ := hi.str.wq f _ hm
  have ht := hi.str.ends w f (by rw [hp]; rfl)
  have hl : Mine s w (.lock (SPL f)) := mine_of (lock_spl f) (by simp [hp, Ph.locks])
  refine fine_lib (pl1 := upd pl h' (.on w)) hi rfl rfl (str_tNote hi.str hp hq) ?_ (by simp [hp, Ph.locks]) ?_ ?_ ?_
  · refine hi.mi.shift w h' rfl rfl rfl rfl (fun x hx => ⟨rfl, rfl, upd_other _ _ hx⟩) ?_ ?_ ?_
    · intro k h; left; simp only [base, h2] at h ⊢; exact h
    · intro k h
      simp only [upd_same, Place.who, Option.some.injEq] at h
      subst h
      exact .inr ⟨mine_thr, _, by rw [h1]; rfl, hl⟩
    · intro g k h4 _ h
      simp only [upd_same, Place.who, Option.some.injEq] at h
      subst h
      rw [h3] at h4; cases h4
      exact .inr ⟨mine_thr, _, .term ht, hl⟩
  · simp only [List.mem_cons, List.not_mem_nil, or_false, forall_eq_or_imp, forall_eq]
    exact ⟨⟨_, .wq f, hl⟩, ⟨_, .wk h' (by rw [upd_same]; rfl), mine_thr⟩⟩
  · intro f' e' k' hk
    cases hk with
    | wq g' h =>
      simp only [State.lib, upd_apply] at h
      split at h
      · rename_i hg; subst hg; exact .inl (.wq g' (by rw [hq]; exact List.mem_cons_of_mem _ h))
      · exact .inl (.wq g' h)
    | made u h =>
      simp only [State.lib, upd_apply] at h
      split at h
      · cases h
      · exact .inl (.made u h)
    | push u h =>
      simp only [State.lib, upd_apply] at h
      split at h
      · cases h
      · exact .inl (.push u h)
    | cas u h =>
      simp only [State.lib, upd_apply] at h
      split at h
      · rename_i hu; cases h; subst hu; exact .inr ⟨mine_thr, _, .wq f hm, hl⟩
      · exact .inl (.cas u h)
  · intro g'
    have := fin_same (s' := ({ s with wq := upd s.wq f q }.lib w [WQ f, WK h'] (.tCas f h' e)).1) (ob := []) hi rfl rfl (by rw [hp]; rfl) (by simp) g'
    simpa using this

theorem fine_tWokeL (hi : Inv s tr pl) (hp : s.ph w = .tWoke f h') (hv : s.sched h' = some w) :
    Fine (s.lib w [WK h'] (.sch h' (.note f))).1 tr (s.lib w [WK h'] (.sch h' (.note f))).2 := by
  refine fine_lib' hi rfl rfl (str_tWokeL hi.str hp hv) hi.mi (by simp [hp, Ph.locks, Ret.locks]) ?_ rfl rfl rfl (by rw [hp]; rfl)
  simp only [List.mem_singleton, forall_eq]
  exact tok_carry hi.str (by simp [hp, Ph.carry])

theorem fine_tWokeR (hi : Inv s tr pl) (hp : s.ph w = .tWoke f h') (hv : s.sched h' = some v) :
    Fine (s.lib w [WK h'] (.rSpin f h' v)).1 tr (s.lib w [WK h'] (.rSpin f h' v)).2 := by
  refine fine_lib' hi rfl rfl (str_tWokeR hi.str hp hv) hi.mi (by simp [hp, Ph.locks]) ?_ rfl rfl rfl (by rw [hp]; rfl)
  simp only [List.mem_singleton, forall_eq]
  exact tok_carry hi.str (by simp [hp, Ph.carry])

theorem fine_rSpin (hi : Inv s tr pl) (hp : s.ph w = .rSpin f h' v) (hs : s.lock w (RS v) t (.rPush f h' v) = some (s', ob)) : Fine s' tr ob :=
  fine_lock hi hs (lock_rs v) (fun _ => str_rSpin hi.str hp) (by intro l'; simp only [hp, Ph.locks, List.mem_cons, List.not_mem_nil, or_false]; exact or_comm)
    rfl (by rw [hp]; rfl)

theorem fine_rPush (hi : Inv s tr pl) (hp : s.ph w = .rPush f h' v) :
    Fine ({ s with rq := upd s.rq v (s.rq v ++ [h']) }.lib w (RQ v :: WK h' :: (s.rq v).map WK) (.rRel f v)).1 tr
      ({ s with rq := upd s.rq v (s.rq v ++ [h']) }.lib w (RQ v :: WK h' :: (s.rq v).map WK) (.rRel f v)).2 := by
  have hc := hi.str.car w h' (by simp [hp, Ph.carry])
  have hw := hi.str.way w
  rw [hp] at hw
  have hl : Mine s w (.lock (RS v)) := mine_of (lock_rs v) (by simp [hp, Ph.locks])
  refine fine_lib' (pl1 := upd pl h' (.rq v)) hi rfl rfl (str_rPush hi.str hp) ?_ (by simp [hp, Ph.locks]) ?_ rfl rfl rfl (by rw [hp]; rfl)
  · refine hi.mi.shift' w h' rfl rfl rfl rfl rfl (fun x hx => ⟨rfl, upd_other _ _ hx⟩) (by rw [hc]; rfl) ?_ ?_
    · intro k h; left; simpa only [base, hw.2] using h
    · intro k h
      simp only [upd_same, Place.who, Option.some.injEq] at h
      subst h
      exact .inr ⟨hl, .thr w, by rw [hc]; rfl, mine_thr⟩
  · simp only [List.mem_cons, List.mem_map, forall_eq_or_imp]
    refine ⟨⟨_, .rq v, hl⟩, ⟨_, .wk h' (by rw [upd_same]; rfl), hl⟩, ?_⟩
    rintro x ⟨q, hq, rfl⟩
    refine ⟨_, .wk q ?_, hl⟩
    have := (hi.str.rq v q hq).1
    rw [upd_apply]; split
    · rfl
    · rw [this]; rfl

theorem fine_rRel (hi : Inv s tr pl) (hp : s.ph w = .rRel f v) (hs : s.unlock w (RS v) t (.tNote f) = some (s', ob)) : Fine s' tr ob := by
  refine fine_unlock hi hs rfl rfl hi.mi (lock_rs v) (by simp [hp, Ph.locks]) (fun _ => str_rRel hi.str hp) ?_ rfl rfl rfl (by rw [hp]; rfl)
  intro l'
  simp only [hp, Ph.locks, List.mem_cons, List.not_mem_nil, or_false]
  exact ⟨fun h => ⟨.inr h, by rw [h]; simp⟩, fun h => h.1.resolve_left h.2⟩

theorem fine_tRel (hi : Inv s tr pl) (hp : s.ph w = .tRel f) (hs : s.unlock w (SPL f) t (.pick (.gone f)) = some (s', ob)) : Fine s' tr ob := by
  have hc := hi.str.car w f (by simp [hp, Ph.carry])
  have hh := hi.str.here w f (by simp [hp, Ph.here])
  refine fine_unlock (pl1 := upd pl f .nil) hi hs rfl rfl ?_ (lock_spl f) (by simp [hp, Ph.locks]) (fun _ => str_tRel hi.str hp) ?_ rfl rfl rfl (by rw [hp]; rfl)
  · refine hi.mi.shift' w f rfl rfl rfl rfl rfl (fun x hx => ⟨rfl, upd_other _ _ hx⟩) (by rw [hc]; rfl) ?_ ?_
    · intro k h; left; simpa only [base, hh] using h
    · intro k h; simp [upd_same, Place.who] at h
  · simp [hp, Ph.locks, After.locks]

/-! ## `remote_ready2ready_()` -/

theorem fine_fSpin (hi : Inv s tr pl) (hp : s.ph w = .fSpin f) (hs : s.lock w (RS w) t (.fSwap f) = some (s', ob)) : Fine s' tr ob :=
  fine_lock hi hs (lock_rs w) (fun _ => str_fSpin hi.str hp) (by simp [hp, Ph.locks]) rfl (by rw [hp]; rfl)

theorem fine_fSwap (hi : Inv s tr pl) (hp : s.ph w = .fSwap f) :
    Fine ({ s with rq := upd s.rq w [] }.lib w (RQ w :: (s.rq w).map WK) (.fRel f (s.rq w))).1 tr
      ({ s with rq := upd s.rq w [] }.lib w (RQ w :: (s.rq w).map WK) (.fRel f (s.rq w))).2 := by
  have hl : Mine s w (.lock (RS w)) := mine_of (lock_rs w) (by simp [hp, Ph.locks])
  refine fine_lib' (pl1 := fun x => if x ∈ s.rq w then .on w else pl x) hi rfl rfl (str_fSwap hi.str hp) ?_ (by simp [hp, Ph.locks]) ?_ rfl rfl rfl (by rw [hp]; rfl)
  · have hb : ∀ f, base { s with rq := upd s.rq w [] } (fun x => if x ∈ s.rq w then .on w else pl x) f = base s pl f := by
      intro f
      unfold base
      dsimp only
      split
      · rfl
      · rename_i h
        rw [if_neg]
        intro hf
        rw [(hi.str.rq w f hf).2] at h; cases h
    refine hi.mi.next w [] (Next.quiet hi.mi.locks (fun _ _ => rfl) (fun _ _ => Nat.le_refl _) (fun _ _ _ => Iff.rfl)) (fun _ _ => rfl) (by simp) (by simp)
      (by simp) ?_ ?_ (fun f _ h => by simpa using h)
    · intro x k _ hk
      cases hk with
      | prv f h => exact .inl (.prv f (by rw [← hb]; exact h))
      | wk f h =>
        split at h
        · rename_i hf
          simp only [Place.who, Option.some.injEq] at h; subst h
          exact .inr ⟨mine_thr, _, .wk f (by rw [(hi.str.rq w f hf).1]; rfl), hl⟩
        · exact .inl (.wk f h)
      | wq f => exact .inl (.wq f)
      | rq f => exact .inl (.rq f)
      | ql f => exact .inl (.ql f)
    · intro f' k hk
      cases hk with
      | base h => exact .inl (.base (by rw [← hb]; exact h))
      | @cont f _ h1 h2 h3 =>
        split at h3
        · rename_i hf
          simp only [Place.who, Option.some.injEq] at h3; subst h3
          have h4 := (hi.str.rq w f hf).1
          exact .inr ⟨mine_thr, _, .cont h1 (by rw [h4]; rfl) (by rw [h4]; rfl), hl⟩
        · rename_i hf
          rw [if_neg hf] at h2
          exact .inl (.cont h1 h2 h3)
      | term h => exact .inl (.term h)
  · simp only [List.mem_cons, List.mem_map, forall_eq_or_imp]
    refine ⟨⟨_, .rq w, hl⟩, ?_⟩
    rintro x ⟨q, hq, rfl⟩
    exact ⟨_, .wk q (by rw [if_pos hq]; rfl), mine_thr⟩

theorem fine_fRel (hi : Inv s tr pl) (hp : s.ph w = .fRel f l) (hs : s.unlock w (RS w) t (.fLoop f l) = some (s', ob)) : Fine s' tr ob :=
  fine_unlock hi hs rfl rfl hi.mi (lock_rs w) (by simp [hp, Ph.locks]) (fun _ => str_fRel hi.str hp) (by simp [hp, Ph.locks]) rfl rfl rfl (by rw [hp]; rfl)

theorem fine_fLoopN (hi : Inv s tr pl) (hp : s.ph w = .fLoop f []) : Fine { s with ph := upd s.ph w (.run f) } tr [] :=
  fine_idle hi (str_fLoopN hi.str hp) (by simp [hp, Ph.locks]) rfl (by rw [hp]; rfl)

theorem fine_fLoop (hi : Inv s tr pl) (hp : s.ph w = .fLoop f (h' :: l)) :
    Fine (s.lib w [WK h'] (.sch h' (.fetch f l))).1 tr (s.lib w [WK h'] (.sch h' (.fetch f l))).2 := by
  refine fine_lib' hi rfl rfl (str_fLoop hi.str hp) hi.mi (by simp [hp, Ph.locks, Ret.locks]) ?_ rfl rfl rfl (by rw [hp]; rfl)
  simp only [List.mem_singleton, forall_eq]
  exact tok_carry hi.str (by simp [hp, Ph.carry])

/-! ## What the running fiber does, and `pick_next()` -/

theorem fine_join (hi : Inv s tr pl) (hp : s.ph w = .run f) : Fine (s.lib w [PRV f] (.jSpin f g)).1 tr (s.lib w [PRV f] (.jSpin f g)).2 := by
  refine fine_lib' hi rfl rfl (str_join hi.str hp) hi.mi (by simp [hp, Ph.locks]) ?_ rfl rfl rfl (by rw [hp]; rfl)
  simp only [List.mem_singleton, forall_eq]
  exact tok_here hi.str (by simp [hp, Ph.here])

theorem fine_yield (hi : Inv s tr pl) (hp : s.ph w = .run f) : Fine (s.lib w [PRV f] (.pick (.yield f))).1 tr (s.lib w [PRV f] (.pick (.yield f))).2 := by
  refine fine_lib' hi rfl rfl (str_yield hi.str hp) hi.mi (by simp [hp, Ph.locks, After.locks]) ?_ rfl rfl rfl (by rw [hp]; rfl)
  simp only [List.mem_singleton, forall_eq]
  exact tok_here hi.str (by simp [hp, Ph.here])

theorem fine_fetch (hi : Inv s tr pl) (hp : s.ph w = .run f) : Fine { s with ph := upd s.ph w (.fSpin f) } tr [] :=
  fine_idle hi (str_fetch hi.str hp) (by simp [hp, Ph.locks]) rfl (by rw [hp]; rfl)

theorem fine_nothing (hi : Inv s tr pl) (hp : s.ph w = .pick (.yield f)) : Fine { s with ph := upd s.ph w (.run f) } tr [] :=
  fine_idle hi (str_nothing hi.str hp) (by simp [hp, Ph.locks, After.locks]) rfl (by rw [hp]; rfl)

theorem fine_left (hi : Inv s tr pl) (hp : s.ph w = .qLook a j) : Fine (s.lib w [QL j] (.qRel a j none)).1 tr (s.lib w [QL j] (.qRel a j none)).2 := by
  refine fine_lib' hi rfl rfl (str_left hi.str hp) hi.mi (by simp [hp, Ph.locks]) ?_ rfl rfl rfl (by rw [hp]; rfl)
  simp only [List.mem_singleton, forall_eq]
  exact tok_ql (by simp [hp, Ph.locks])

theorem fine_look (hi : Inv s tr pl) (hp : s.ph w = .pick a) (hs : s.lock w (QS j) t (.qLook a j) = some (s', ob)) : Fine s' tr ob :=
  fine_lock hi hs (lock_qs j) (fun _ => str_look hi.str hp) (by intro l'; simp only [hp, Ph.locks, List.mem_cons]; exact or_comm) rfl (by rw [hp]; rfl)

theorem fine_own (hi : Inv s tr pl) (hp : s.ph w = .pick a) (hn : n ∈ s.own w) :
    Fine ({ s with own := upd s.own w ((s.own w).erase n) }.lib w [PRV n] (.sw a n)).1 tr
      ({ s with own := upd s.own w ((s.own w).erase n) }.lib w [PRV n] (.sw a n)).2 := by
  obtain ⟨hc, hh⟩ := hi.str.own w n hn
  refine fine_lib' (pl1 := upd pl n (.on w)) hi rfl rfl (str_own hi.str hp hn) ?_ (by simp [hp, Ph.locks]) ?_ rfl rfl rfl (by rw [hp]; rfl)
  · refine hi.mi.shift' w n rfl rfl rfl rfl rfl (fun x hx => ⟨rfl, upd_other _ _ hx⟩) (by rw [hc]; rfl) ?_ ?_
    · intro k h; left; simpa only [base, hh] using h
    · intro k h; left; simpa only [hc, upd_same, Place.who] using h
  · simp only [List.mem_singleton, forall_eq]
    exact ⟨_, .prv n (by simp only [base, hh]), mine_thr⟩

theorem fine_took (hi : Inv s tr pl) (hp : s.ph w = .qLook a j) (hn : n ∈ s.sq j) (hj : pinned n = true → j = w + 1) :
    Fine ({ s with sq := upd s.sq j ((s.sq j).erase n) }.lib w [QL j] (.qRel a j (some n))).1 tr
      ({ s with sq := upd s.sq j ((s.sq j).erase n) }.lib w [QL j] (.qRel a j (some n))).2 := by
  have hc := (hi.str.sq j n hn).1
  have hl : Mine s w (.lock (QS j)) := mine_of (lock_qs j) (by simp [hp, Ph.locks])
  refine fine_lib' (pl1 := upd pl n (.on w)) hi rfl rfl (str_took hi.str hp hn hj) ?_ (by simp [hp, Ph.locks]) ?_ rfl rfl rfl (by rw [hp]; rfl)
  · have hwk : ∀ k, (upd pl n (.on w) n).who = some k → (pl n).who = some k ∨ (Mine s w k ∧ ∃ k0, (pl n).who = some k0 ∧ Mine s w k0) := by
      intro k h
      simp only [upd_same, Place.who, Option.some.injEq] at h
      subst h
      exact .inr ⟨mine_thr, _, by rw [hc]; rfl, hl⟩
    refine hi.mi.shift' w n rfl rfl rfl rfl rfl (fun x hx => ⟨rfl, upd_other _ _ hx⟩) (by rw [hc]; rfl) ?_ hwk
    intro k h
    unfold base at h ⊢
    dsimp only at h
    split at h
    · exact .inl h
    · exact hwk k h
  · simp only [List.mem_singleton, forall_eq]
    exact ⟨_, .ql j, hl⟩

/-! ## Wakers -/

theorem fine_jArm (hi : Inv s tr pl) (hp : s.ph w = .jArm f g) (hr : rmw s.mem w (EP f) t (· + 1) true true = some (v, m)) :
    Fine { s with mem := m, ph := upd s.ph w (.jWaker f g (v + 1)) } tr [] := by
  obtain ⟨g0, hr⟩ := rmw_spec hr
  obtain ⟨n', hn', _, _, _, hm⟩ := hr.msg
  have hv : v = t := hr.val.trans (hi.ep.val f t g0 hr.read)
  have hc := hi.str.car w f (by simp [hp, Ph.carry])
  have hms : ∀ l, isLock l → m.msg l = s.mem.msg l := fun l hl => msg_other hm (by rintro rfl; exact not_lock_ep f hl)
  have hcur := cur_mono hr.others hr.mono
  have hlk : ∀ l, l ∈ (Ph.jWaker f g (v + 1)).locks w ↔ l ∈ (s.ph w).locks w := by simp [hp, Ph.locks]
  have hmi := hi.mi.other (p' := .jWaker f g (v + 1)) hms hcur hr.last hlk
  have hnx : Next isLock s.mem s.hold m (State.hold { s with mem := m, ph := upd s.ph w (.jWaker f g (v + 1)) }) :=
    Next.quiet hi.mi.locks hms hcur (fun l u _ => hold_same (s := s) (s' := { s with mem := m, ph := upd s.ph w (.jWaker f g (v + 1)) }) rfl hlk l u)
  refine ⟨pl, ⟨str_jArm hi.str hp, by rw [order_append]; exact hmi, ⟨?_, ?_, ?_⟩, fin_same hi rfl rfl (by rw [hp]; rfl) (by simp)⟩, by simp⟩
  · intro f' t' g' h
    dsimp only at h
    by_cases hf : f' = f
    · subst hf
      rw [msg_new hm] at h
      split at h
      · cases h; rename_i ht; rw [hn', hv, ht]
      · exact hi.ep.val f' t' g' h
    · rw [msg_other hm (by simpa using hf)] at h; exact hi.ep.val f' t' g' h
  · intro f' t' h
    dsimp only at h ⊢
    by_cases hf : f' = f
    · subst hf
      rw [msg_new hm] at h ⊢
      split at h
      · cases h
      · rw [if_neg]
        · exact hi.ep.down f' t' h
        · rintro h1
          have : t' = t := by omega
          subst this
          rw [hr.read] at h; cases h
    · rw [msg_other hm (by simpa using hf)] at h ⊢; exact hi.ep.down f' t' h
  · intro f' e' k h
    by_cases hf : f' = f
    · subst hf
      have h0 : e' = v + 1 ∧ k = .thr w := by
        cases h with
        | wq g' h =>
          have := (hi.str.wq g' _ h).1
          dsimp only at this; rw [hc] at this; cases this
        | made u h =>
          simp only [upd_apply] at h
          split at h
          · rename_i hu; cases h; exact ⟨rfl, by rw [hu]⟩
          · rename_i hu
            have := hi.str.car u f' (by simp [h, Ph.carry])
            rw [hc] at this; cases this; exact absurd rfl hu
        | push u h =>
          simp only [upd_apply] at h
          split at h
          · cases h
          · rename_i hu
            have := hi.str.car u f' (by simp [h, Ph.carry])
            rw [hc] at this; cases this; exact absurd rfl hu
        | cas u h =>
          simp only [upd_apply] at h
          split at h
          · cases h
          · rename_i hu
            have := hi.str.car u f' (by simp [h, Ph.carry])
            rw [hc] at this; cases this; exact absurd rfl hu
      obtain ⟨rfl, rfl⟩ := h0
      refine ⟨?_, ?_⟩
      · dsimp only
        rw [msg_new hm, if_neg (by omega), hv]
        exact hi.ep.down _ _ hr.free
      · show v + 1 ≤ m.cur w (EP f')
        rw [hv]; exact hr.new
    · have h0 : Armed s f' e' k := by
        cases h with
        | wq g' h => exact .wq g' h
        | made u h =>
          simp only [upd_apply] at h
          split at h
          · cases h; exact absurd rfl hf
          · exact .made u h
        | push u h =>
          simp only [upd_apply] at h
          split at h
          · cases h
          · exact .push u h
        | cas u h =>
          simp only [upd_apply] at h
          split at h
          · cases h
          · exact .cas u h
      have hk : ∀ l, k = .lock l → isLock l := by
        cases h0 with
        | wq g _ => intro l hl; cases hl; exact lock_spl g
        | _ => intro l hl; cases hl
      dsimp only
      rw [msg_other hm (by simpa using hf)]
      exact ⟨(hi.ep.top f' e' k h0).1, hnx.kn k _ _ hk (hi.ep.top f' e' k h0).2⟩

theorem Ep.above (hi : Ep s) {f : Fib} {t u : Nat} (h : s.mem.msg (EP f) t = none) (hu : t ≤ u) : s.mem.msg (EP f) u = none := by
  induction u with
  | zero => have : t = 0 := by omega
            subst this; exact h
  | succ u ih =>
    by_cases he : t = u + 1
    · subst he; exact h
    · exact hi.down f u (ih (by omega))

theorem fine_tCas (hi : Inv s tr pl) (hp : s.ph w = .tCas f h' e) {b : Bool} (hr : cas s.mem w (EP h') t e (e + 1) true true true = some (b, v, m)) :
    Fine { s with mem := m, ph := upd s.ph w (if b then .tWoke f h' else .tNote f) } tr [.woke f h' b] := by
  have hc := hi.str.car w h' (by simp [hp, Ph.carry])
  obtain ⟨h1, h2⟩ := hi.ep.top h' e _ (.cas w hp)
  have h2 : e ≤ s.mem.cur w (EP h') := h2
  have hlow : ∀ g0, s.mem.msg (EP h') t = some g0 → s.mem.cur w (EP h') ≤ t → g0.val = e := by
    intro g0 h3 h4
    have h5 : ¬ e + 1 ≤ t := fun h6 => by rw [hi.ep.above h1 h6] at h3; cases h3
    rw [hi.ep.val _ _ _ h3]; omega
  rcases cas_spec hr with ⟨rfl, hve, g0, hr⟩ | ⟨rfl, hve, g0, hr⟩
  · obtain ⟨n', hn', _, _, _, hm⟩ := hr.msg
    have hv : v = t := hr.val.trans (hi.ep.val h' t g0 hr.read)
    have hms : ∀ l, isLock l → m.msg l = s.mem.msg l := fun l hl => msg_other hm (by rintro rfl; exact not_lock_ep h' hl)
    have hcur := cur_mono hr.others hr.mono
    have hlk : ∀ l, l ∈ (Ph.tWoke f h').locks w ↔ l ∈ (s.ph w).locks w := by simp [hp, Ph.locks]
    have hmi := hi.mi.other (p' := .tWoke f h') hms hcur hr.last hlk
    have hnx : Next isLock s.mem s.hold m (State.hold { s with mem := m, ph := upd s.ph w (.tWoke f h') }) :=
      Next.quiet hi.mi.locks hms hcur (fun l u _ => hold_same (s := s) (s' := { s with mem := m, ph := upd s.ph w (.tWoke f h') }) rfl hlk l u)
    refine ⟨pl, ⟨str_tCasT hi.str hp, by rw [order_append]; exact hmi, ⟨?_, ?_, ?_⟩, fin_same (w := w) (p' := .tWoke f h') hi rfl rfl (by rw [hp]; rfl) (by simp)⟩, good_one rfl⟩
    · intro f' t' g' h
      dsimp only at h
      by_cases hf : f' = h'
      · subst hf
        rw [msg_new hm] at h
        split at h
        · cases h; rename_i ht; rw [hn', ← hve, hv, ht]
        · exact hi.ep.val f' t' g' h
      · rw [msg_other hm (by simpa using hf)] at h; exact hi.ep.val f' t' g' h
    · intro f' t' h
      dsimp only at h ⊢
      by_cases hf : f' = h'
      · subst hf
        rw [msg_new hm] at h ⊢
        split at h
        · cases h
        · rw [if_neg]
          · exact hi.ep.down f' t' h
          · rintro h1
            have : t' = t := by omega
            subst this
            rw [hr.read] at h; cases h
      · rw [msg_other hm (by simpa using hf)] at h ⊢; exact hi.ep.down f' t' h
    · intro f' e' k h
      have h0 : Armed s f' e' k := armed_same (s := s) (s' := { s with mem := m, ph := upd s.ph w (.tWoke f h') }) (w := w) (p' := .tWoke f h') rfl rfl rfl h
      have hf : f' ≠ h' := by
        rintro rfl
        cases h with
        | wq g' h =>
          have := (hi.str.wq g' _ h).1
          dsimp only at this; rw [hc] at this; cases this
        | made u h =>
          simp only [upd_apply] at h
          split at h
          · cases h
          · rename_i hu
            have := hi.str.car u f' (by simp [h, Ph.carry])
            rw [hc] at this; cases this; exact absurd rfl hu
        | push u h =>
          simp only [upd_apply] at h
          split at h
          · cases h
          · rename_i hu
            have := hi.str.car u f' (by simp [h, Ph.carry])
            rw [hc] at this; cases this; exact absurd rfl hu
        | cas u h =>
          simp only [upd_apply] at h
          split at h
          · cases h
          · rename_i hu
            have := hi.str.car u f' (by simp [h, Ph.carry])
            rw [hc] at this; cases this; exact absurd rfl hu
      have hk : ∀ l, k = .lock l → isLock l := by
        cases h0 with
        | wq g _ => intro l hl; cases hl; exact lock_spl g
        | _ => intro l hl; cases hl
      dsimp only
      rw [msg_other hm (by simpa using hf)]
      exact ⟨(hi.ep.top f' e' k h0).1, hnx.kn k _ _ hk (hi.ep.top f' e' k h0).2⟩
  · exact absurd (hr.val.trans (hlow g0 hr.read hr.old)) hve

/-! ## Events of the user -/

theorem fine_finish (hi : Inv s tr pl) (hp : s.ph w = .run f) : Fine { s with ph := upd s.ph w (.tSpin f) } tr [.finished f] := by
  refine ⟨pl, ⟨str_finish hi.str hp, ?_, ?_, ?_⟩, good_one trivial⟩
  · rw [order_append]; exact hi.mi.idle (by simp [hp, Ph.locks])
  · exact hi.ep.next (w := w) hi.mi.locks (Next.quiet hi.mi.locks (fun _ _ => rfl) (fun _ _ => Nat.le_refl _)
      (fun l u _ => hold_same (s := s) (s' := { s with ph := upd s.ph w (.tSpin f) }) (p' := .tSpin f) rfl (by simp [hp, Ph.locks]) l u))
      (fun _ => rfl) (fun f' e k hk => .inl (armed_same (w := w) (p' := .tSpin f) (s' := { s with ph := upd s.ph w (.tSpin f) }) rfl rfl rfl hk))
  · intro g
    rw [List.mem_append, hi.fin g]
    simp only [List.mem_singleton, Obs.finished.injEq, upd_apply]
    constructor
    · rintro ((h | ⟨u, h⟩) | h)
      · exact .inl h
      · right; refine ⟨u, ?_⟩
        rw [if_neg]
        · exact h
        · rintro rfl; rw [hp] at h; cases h
      · right; exact ⟨w, by rw [if_pos rfl, h]; rfl⟩
    · rintro (h | ⟨u, h⟩)
      · exact .inl (.inl h)
      · split at h
        · right; simp only [Ph.fin, Option.some.injEq] at h; exact h.symm
        · exact .inl (.inr ⟨u, h⟩)

/-- What the running fiber knows is known to its thread only. -/
theorem car_run (hs : Str s pl) (hp : s.ph w = .run f) {k : Who} (hk : Car s pl f k) : k = .thr w := by
  have ht := not_term hs (w := w) (f := f) (by simp [hp, Ph.carry]) (by simp [hp, Ph.ends])
  have hh := hs.here w f (by simp [hp, Ph.here])
  cases hk with
  | base h => simp only [base, hh, Option.some.injEq] at h; exact h.symm
  | cont h1 h2 _ => rw [hs.cont _ _ h1 h2] at ht; cases ht
  | term h => rw [h] at ht; cases ht

theorem fine_ret (hi : Inv s tr pl) (hp : s.ph w = .run f) (hc : s.cont f = some g) :
    Fine { s with cont := upd s.cont f none } tr [.joined f g] := by
  have hon := hi.str.car w f (by simp [hp, Ph.carry])
  have hh := hi.str.here w f (by simp [hp, Ph.here])
  have ht := hi.str.cont f g hc (by rw [hon]; rfl)
  refine ⟨pl, ⟨?_, ?_, ?_, ?_⟩, ?_⟩
  · have h := hi.str
    have hp0 := hp
    have := run_upd hp
    have h1 : Str { s with mem := s.mem, ph := upd s.ph w (.run f), cont := upd s.cont f none } pl := by
      str
    rw [this] at h1; exact h1
  · rw [order_append]
    have hsub : ∀ f' k, Car { s with cont := upd s.cont f none } pl f' k → Car s pl f' k := by
      intro f' k hk
      cases hk with
      | base h => exact .base h
      | @cont x _ h1 h2 h3 =>
        simp only [upd_apply] at h1
        split at h1
        · cases h1
        · exact .cont h1 h2 h3
      | term h => exact .term h
    refine ⟨hi.mi.locks, ?_, ?_, hi.mi.cnt, ?fr⟩
    case fr =>
      intro f' h1 h2
      obtain ⟨h3, h4, h5⟩ := hi.mi.fresh f' h1 h2
      refine ⟨h3, h4, fun x => ?_⟩
      have hne : f' ≠ f := by
        rintro rfl
        have := (hi.str.new f' h1 h2).1
        rw [hon] at this; cases this
      simp only [List.foldl_cons, List.foldl_nil, Order.next, upd_other _ _ hne]
      exact h5 x
    · intro x k hk
      refine hi.mi.tok x k ?_
      cases hk with
      | prv f h => exact .prv f h
      | wk f h => exact .wk f h
      | wq f => exact .wq f
      | rq f => exact .rq f
      | ql f => exact .ql f
    · intro f' k hk x
      replace hk := hsub f' k hk
      simp only [List.foldl_cons, List.foldl_nil, Order.next, upd_apply]
      split
      · rename_i he; subst he
        have h1 := hi.mi.car f' k hk x
        have := car_run hi.str hp hk
        subst this
        have h2 := hi.mi.car g (.thr w) (.cont hc (by rw [hon]; rfl) (by rw [hon]; rfl)) x
        exact Nat.max_le.2 ⟨h1, h2⟩
      · exact hi.mi.car f' k hk x
  · refine ⟨hi.ep.val, hi.ep.down, fun f e k h => hi.ep.top f e k ?_⟩
    cases h with
    | wq g h => exact .wq g h
    | made u h => exact .made u h
    | push u h => exact .push u h
    | cas u h => exact .cas u h
  · intro g'
    rw [List.mem_append, hi.fin g']
    simp
  · exact good_one ((hi.fin g).2 (.inl ht))

theorem Str.mem (h : Str s pl) (m : Mem) : Str { s with mem := m } pl :=
  ⟨h.car, h.nd, h.here, h.way, h.own, h.ownN, h.sq, h.sqN, h.rq, h.rqN, h.wq, h.wqN, h.pin, h.ends, h.term, h.cont, h.new⟩

theorem Armed.mem {k0 : Who} (h : Armed { s with mem := m } f e k0) : Armed s f e k0 := by
  cases h with
  | wq g h => exact .wq g h
  | made u h => exact .made u h
  | push u h => exact .push u h
  | cas u h => exact .cas u h

theorem fine_use (hi : Inv s tr pl) (hp : s.ph w = .run f) :
    Fine { s with mem := (touch (touches s.mem w [PRV f]).2 w (US x)).2 } tr
      [.lib w (touches s.mem w [PRV f]).1, .acc f x (touch (touches s.mem w [PRV f]).2 w (US x)).1] := by
  have hh := hi.str.here w f (by simp [hp, Ph.here])
  obtain ⟨h1, h2⟩ := hi.mi.lib0 (s' := { s with mem := (touches s.mem w [PRV f]).2 }) (w := w) (xs := [PRV f]) (p' := .run f) rfl (run_upd hp).symm rfl rfl rfl rfl
    (by simp [hp]) (hi.str.mem _) (by simp only [List.mem_singleton, forall_eq]; exact tok_here hi.str (by simp [hp, Ph.here]))
  have hu := touches_spec (m := s.mem) (w := w) (xs := [PRV f]) (b := (touches s.mem w [PRV f]).1) (m' := (touches s.mem w [PRV f]).2) rfl
  generalize hm1 : (touches s.mem w [PRV f]).2 = m1 at *
  have ht := touch_spec (m := m1) (w := w) (x := US x) (b := (touch m1 w (US x)).1) (m' := (touch m1 w (US x)).2) rfl
  generalize hm2 : (touch m1 w (US x)).2 = m2 at *
  have hcur := cur_mono ht.others ht.mono
  have hn2 : Next isLock m1 s.hold m2 s.hold := Next.quiet h1.locks (fun l _ => by rw [ht.msg]) hcur (fun _ _ _ => Iff.rfl)
  have hn1 : Next isLock s.mem s.hold m1 s.hold := Next.quiet hi.mi.locks (fun l _ => by rw [hu.msg]) hu.mono (fun _ _ _ => Iff.rfl)
  refine ⟨pl, ⟨hi.str.mem _, ?_, ?_, ?_⟩, ?_⟩
  · rw [order_append]
    refine ⟨hn2.locks, ?_, ?_, ?_, ?_⟩
    · intro y k hk
      have hk' : Tok { s with mem := m1 } pl y k := by
        cases hk with
        | prv f h => exact .prv f h
        | wk f h => exact .wk f h
        | wq f => exact .wq f
        | rq f => exact .rq f
        | ql f => exact .ql f
      have hy : y ≠ US x := by rintro rfl; exact tok_us hk
      show Kn m2 s.hold k y (m2.last y)
      rw [ht.last, upd_other _ _ hy]
      exact hn2.kn k y _ (tok_lock hk) (h1.tok y k hk')
    · intro f' k hk y
      have hk' : Car { s with mem := m1 } pl f' k := by
        cases hk with
        | base h => exact .base h
        | cont h1 h2 h3 => exact .cont h1 h2 h3
        | term h => exact .term h
      have h3 : Kn m2 s.hold k (US y) ((order tr).know f' y) := hn2.kn k _ _ (car_lock hk) (h1.car f' k hk' y)
      simp only [List.foldl_cons, List.foldl_nil, Order.next, upd_apply]
      split
      · rename_i he; subst he
        have := car_run (hi.str.mem m1) hp hk'
        subst this
        rw [upd_apply]
        split
        · rename_i he; subst he
          have := ht.new
          have h4 := h1.cnt y
          dsimp only at h4
          rw [h4] at this
          exact this
        · exact h3
      · exact h3
    · intro y
      have h4 := h1.cnt y
      dsimp only at h4
      simp only [List.foldl_cons, List.foldl_nil, Order.next, upd_apply]
      rw [ht.last, upd_apply]
      simp only [us_inj]
      split
      · rename_i he; subst he; rw [h4]
      · exact h4
    · intro f' h5 h6
      have h7 := h1.fresh f' h5 h6
      dsimp only at h7 ⊢
      rw [ht.last, upd_other _ _ (by simp), upd_other _ _ (by simp)]
      refine ⟨h7.1, h7.2.1, fun y => ?_⟩
      have hne : f' ≠ f := by
        rintro rfl
        have := (hi.str.new f' h5 h6).2.1
        rw [hh] at this; cases this
      simp only [List.foldl_cons, List.foldl_nil, Order.next, upd_other _ _ hne]
      exact h7.2.2 y
  · refine ⟨?_, ?_, ?_⟩
    · intro f t g h; dsimp only at h; rw [ht.msg, hu.msg] at h; exact hi.ep.val f t g h
    · intro f t h; dsimp only at h ⊢; rw [ht.msg, hu.msg] at h ⊢; exact hi.ep.down f t h
    · intro f e k h
      have h3 := hi.ep.top f e k h.mem
      dsimp only
      rw [ht.msg, hu.msg]
      have hk : ∀ l, k = .lock l → isLock l := by
        cases h with
        | wq g _ => intro l hl; cases hl; exact lock_spl g
        | _ => intro l hl; cases hl
      exact ⟨h3.1, hn2.kn k _ _ hk (hn1.kn k _ _ hk h3.2)⟩
  · intro g
    rw [List.mem_append, hi.fin g]
    simp
  · refine good_two h2 ⟨fun hr => ?_, ?_⟩
    · rw [order_append]
      have h3 := ht.race.1 hr
      have h4 : (order tr).know f x ≤ m1.cur w (US x) := h1.car f (.thr w) (.base (by simp only [base, hh])) x
      have h5 := h1.cnt x
      dsimp only at h5
      simp only [List.foldl_cons, List.foldl_nil, Order.next]
      omega
    · have := not_fin hi (w := w) (f := f) (by simp [hp, Ph.carry]) (by simp [hp, Ph.ends]) (by simp [hp, Ph.fin])
      simpa using this

theorem fine_spawn (hi : Inv s tr pl) (hp : s.ph w = .run f) (hg : pinned g = false) (hb : s.born g = false) (hp' : p' = .sch f (.run g) ∨ p' = .sch g (.run f)) :
    Fine ({ s with sched := upd s.sched g (some w), born := upd s.born g true }.lib w [PRV f, PRV g, WK g] p').1 tr
      (({ s with sched := upd s.sched g (some w), born := upd s.born g true }.lib w [PRV f, PRV g, WK g] p').2 ++ [.spawned f g]) := by
  obtain ⟨hpl, hsc, hte, hco⟩ := hi.str.new g hg hb
  have hon := hi.str.car w f (by simp [hp, Ph.carry])
  have hh := hi.str.here w f (by simp [hp, Ph.here])
  have hfg : f ≠ g := by rintro rfl; rw [hpl] at hon; cases hon
  have hfr := hi.mi.fresh g hg hb
  have hst : Str ({ s with sched := upd s.sched g (some w), born := upd s.born g true }.lib w [PRV f, PRV g, WK g] p').1 (upd pl g (.on w)) := by
    rcases hp' with rfl | rfl
    · exact str_spawnN hi.str hp hg hb
    · exact str_spawn hi.str hp hg hb
  have hlk : ∀ l, l ∈ p'.locks w ↔ l ∈ (s.ph w).locks w := by
    rcases hp' with rfl | rfl <;> simp [hp, Ph.locks, Ret.locks]
  have hfi : p'.fin = (s.ph w).fin := by
    rcases hp' with rfl | rfl <;> simp [hp, Ph.fin]
  have hba : p'.bare = true := by
    rcases hp' with rfl | rfl <;> rfl
  have hbo : ∀ f', f' ≠ g → base { s with sched := upd s.sched g (some w), born := upd s.born g true } (upd pl g (.on w)) f' = base s pl f' := by
    intro f' hf; simp only [base, upd_other _ _ hf]
  have hbg : base { s with sched := upd s.sched g (some w), born := upd s.born g true } (upd pl g (.on w)) g = some (.thr w) := by
    simp only [base, upd_same]
  have hmi : Mi { s with sched := upd s.sched g (some w), born := upd s.born g true } (upd pl g (.on w)) ((order tr).next (.spawned f g)) := by
    refine ⟨hi.mi.locks, ?_, ?_, hi.mi.cnt, ?_⟩
    · intro x k hk
      cases hk with
      | prv f' h =>
        by_cases hf : f' = g
        · subst hf; dsimp only; rw [hfr.1]; exact Kn.zero
        · rw [hbo f' hf] at h; exact hi.mi.tok _ _ (.prv f' h)
      | wk f' h =>
        by_cases hf : f' = g
        · subst hf; dsimp only; rw [hfr.2.1]; exact Kn.zero
        · rw [upd_other _ _ hf] at h; exact hi.mi.tok _ _ (.wk f' h)
      | wq f => exact hi.mi.tok _ _ (.wq f)
      | rq f => exact hi.mi.tok _ _ (.rq f)
      | ql f => exact hi.mi.tok _ _ (.ql f)
    · intro f' k hk x
      have hcar : f' ≠ g → Car s pl f' k := by
        intro hf
        cases hk with
        | base h => rw [hbo f' hf] at h; exact .base h
        | @cont y _ h1 h2 h3 =>
          by_cases hy : y = g
          · subst hy; dsimp only at h1; rw [hco] at h1; cases h1
          · rw [upd_other _ _ hy] at h2 h3; exact .cont h1 h2 h3
        | term h => exact .term h
      simp only [Order.next, upd_apply]
      split
      · rename_i he; subst he
        have : k = .thr w := by
          cases hk with
          | base h => rw [hbg] at h; exact (Option.some.inj h).symm
          | @cont y _ h1 h2 h3 =>
            by_cases hy : y = f'
            · subst hy; dsimp only at h1; rw [hco] at h1; cases h1
            · rw [upd_other _ _ hy] at h2
              rw [hi.str.cont y f' h1 h2] at hte; cases hte
          | term h => dsimp only at h; rw [hte] at h; cases h
        subst this
        dsimp only
        rw [hfr.2.2 x, Nat.zero_max]
        exact hi.mi.car f (.thr w) (.base (by simp only [base, hh])) x
      · rename_i he; exact hi.mi.car f' k (hcar he) x
    · intro f' h1 h2
      simp only [upd_apply] at h2
      split at h2
      · cases h2
      · rename_i hf
        obtain ⟨h3, h4, h5⟩ := hi.mi.fresh f' h1 h2
        exact ⟨h3, h4, fun x => by simp only [Order.next, upd_other _ _ hf]; exact h5 x⟩
  obtain ⟨h1, h2⟩ := hmi.lib0 (w := w) (xs := [PRV f, PRV g, WK g]) (p' := p') (s' := ({ s with sched := upd s.sched g (some w), born := upd s.born g true }.lib w [PRV f, PRV g, WK g] p').1)
    rfl rfl rfl rfl rfl rfl hlk hst (by
      simp only [List.mem_cons, List.not_mem_nil, or_false, forall_eq_or_imp, forall_eq]
      exact ⟨⟨_, .prv f (by rw [hbo f hfg]; simp only [base, hh]), mine_thr⟩, ⟨_, .prv g hbg, mine_thr⟩, ⟨_, .wk g (by rw [upd_same]; rfl), mine_thr⟩⟩)
  have h3 := next_lib (s := s) (s' := ({ s with sched := upd s.sched g (some w), born := upd s.born g true }.lib w [PRV f, PRV g, WK g] p').1) (w := w)
    (xs := [PRV f, PRV g, WK g]) (p' := p') hi.mi.locks rfl rfl hlk
  refine ⟨upd pl g (.on w), ⟨hst, ?_, ?_, ?_⟩, ?_⟩
  · rw [order_append]; exact h1
  · exact hi.ep.next (w := w) hi.mi.locks h3.1 (fun f => by rw [h3.2]) (fun f' e k hk => .inl (armed_same (s := s)
      (s' := ({ s with sched := upd s.sched g (some w), born := upd s.born g true }.lib w [PRV f, PRV g, WK g] p').1) (w := w) (p' := p') rfl hba rfl hk))
  · exact fin_same (w := w) (p' := p') hi rfl rfl hfi (by simp [State.lib])
  · exact good_two h2 trivial

/-! ## All steps -/

theorem fine_go (hi : Inv s tr pl) (hs : go s w t = some (s', ob)) : Fine s' tr ob := by
  unfold go at hs
  split at hs
  · rename_i hp; exact fine_jSpin hi hp hs
  · rename_i hp; cases hs; exact fine_jLook hi hp
  · rename_i hp; exact fine_jDone hi hp hs
  · rename_i hp
    split at hs
    · cases hs
    · rename_i hr; cases hs; exact fine_jArm hi hp hr
  · rename_i hp; cases hs; exact fine_jWaker hi hp
  · rename_i hp; cases hs; exact fine_jPush hi hp
  · rename_i a j n hp
    cases n with
    | none => exact fine_qRelN hi hp hs
    | some n => exact fine_qRelS hi hp hs
  · rename_i hp
    split at hs
    · rename_i hn; cases hs; exact fine_attP hi hp hn
    · rename_i hn; cases hs; exact fine_att hi hp (by simpa using hn)
  · rename_i a n hp
    cases a with
    | susp f g => cases hs; exact fine_swS hi hp
    | yield f => cases hs; exact fine_swY hi hp
    | gone f => cases hs; exact fine_swG hi hp
  · rename_i hp; exact fine_unl hi hp hs
  · rename_i hp; cases hs; exact fine_ownF hi hp
  · rename_i hp
    split at hs
    · cases hs; exact fine_schO hi hp
    · rename_i hj
      split at hs
      · rename_i hn; cases hs; exact fine_schP hi hp hn hj
      · rename_i hn; cases hs; exact fine_sch hi hp (by simpa using hn)
  · rename_i hp; exact fine_qSpin hi hp hs
  · rename_i hp; cases hs; exact fine_qPush hi hp
  · rename_i hp; exact fine_qFree hi hp hs
  · rename_i hp; exact fine_tSpin hi hp hs
  · rename_i hp; cases hs; exact fine_tMark hi hp
  · rename_i hp
    split at hs
    · cases hs; exact fine_tNoteN hi hp
    · rename_i hq; cases hs; exact fine_tNote hi hp hq
  · rename_i hp
    split at hs
    · cases hs
    · rename_i hr; cases hs; exact fine_tCas hi hp hr
  · rename_i f h hp
    split at hs
    · rename_i hn
      have := hi.str.way w
      rw [hp] at this
      obtain ⟨_, v, hv⟩ := this
      rw [hn] at hv; cases hv
    · rename_i v hv
      cases hs
      by_cases he : v = w
      · subst he; simp only [if_true]; exact fine_tWokeL hi hp hv
      · simp only [if_neg he]; exact fine_tWokeR hi hp hv
  · rename_i hp; exact fine_rSpin hi hp hs
  · rename_i hp; cases hs; exact fine_rPush hi hp
  · rename_i hp; exact fine_rRel hi hp hs
  · rename_i hp; exact fine_tRel hi hp hs
  · rename_i hp; exact fine_fSpin hi hp hs
  · rename_i hp; cases hs; exact fine_fSwap hi hp
  · rename_i hp; exact fine_fRel hi hp hs
  · rename_i hp; cases hs; exact fine_fLoopN hi hp
  · rename_i hp; cases hs; exact fine_fLoop hi hp
  · cases hs

theorem fine_step {ev : Event} (hi : Inv s tr pl) (hs : step s ev = some (s', ob)) : Fine s' tr ob := by
  unfold step at hs
  split at hs
  · split at hs
    · rename_i hp
      split at hs
      · cases hs; exact fine_use hi hp
      · cases hs
    · cases hs
  · rename_i w g now
    split at hs
    · rename_i hp
      split at hs
      · rename_i hc
        cases hs
        refine fine_spawn hi hp hc.2.2.1 hc.2.2.2 ?_
        cases now <;> simp
      · cases hs
    · cases hs
  · split at hs
    · rename_i hp
      split at hs
      · cases hs; exact fine_join hi hp
      · cases hs
    · cases hs
  · split at hs
    · rename_i hp
      split at hs
      · rename_i hc; cases hs; exact fine_ret hi hp hc
      · cases hs
    · cases hs
  · split at hs
    · rename_i hp
      split at hs
      · cases hs; exact fine_yield hi hp
      · cases hs
    · cases hs
  · split at hs
    · rename_i hp
      split at hs
      · cases hs; exact fine_finish hi hp
      · cases hs
    · cases hs
  · split at hs
    · rename_i hp
      split at hs
      · cases hs; exact fine_fetch hi hp
      · cases hs
    · cases hs
  · exact fine_go hi hs
  · split at hs
    · rename_i hp
      split at hs
      · rename_i hn; cases hs; exact fine_own hi hp hn
      · cases hs
    · cases hs
  · split at hs
    · rename_i hp
      split at hs
      · exact fine_look hi hp hs
      · cases hs
    · cases hs
  · split at hs
    · rename_i hp
      split at hs
      · rename_i hn; cases hs; exact fine_took hi hp hn.1 hn.2
      · cases hs
    · cases hs
  · split at hs
    · rename_i hp; cases hs; exact fine_left hi hp
    · cases hs
  · split at hs
    · rename_i hp
      split at hs
      · cases hs; exact fine_nothing hi hp
      · cases hs
    · cases hs

/-! ## The beginning -/

/-- Where the fibers are at the beginning. -/
def pl0 (alg : Nat → Alg) (f : Fib) : Place :=
  if f % 3 = 0 then .on (f / 3) else if f % 3 = 1 then (if alg (f / 3) = .workStealing then .sq (f / 3 + 1) else .own (f / 3)) else .nil

theorem inv_init (alg : Nat → Alg) : Inv (init alg) [] (pl0 alg) := by
  have h0 : ∀ w : Nat, 3 * w % 3 = 0 := fun w => by omega
  have h1 : ∀ w : Nat, (3 * w + 1) % 3 = 1 := fun w => by omega
  have h2 : ∀ w : Nat, 3 * w / 3 = w := fun w => by omega
  have h3 : ∀ w : Nat, (3 * w + 1) / 3 = w := fun w => by omega
  refine ⟨⟨?_, ?_, ?_, ?_, ?_, ?_, ?_, ?_, ?_, ?_, ?_, ?_, ?_, ?_, ?_, ?_, ?_⟩, ⟨?_, ?_, ?_, ?_, ?_⟩, ⟨?_, ?_, ?_⟩, ?_⟩
  · intro w f hf
    simp only [init, Ph.carry, List.mem_singleton] at hf
    subst hf; simp [pl0, h0, h2]
  · intro w; simp [init, Ph.carry]
  · intro w f hf
    simp only [init, Ph.here, List.mem_singleton] at hf
    subst hf; simp [init, pinned, homeOf, h0, h2]
  · intro w; trivial
  · intro w f hf
    simp only [init] at hf
    split at hf
    · cases hf
    · rename_i ha
      simp only [List.mem_singleton] at hf; subst hf
      simp [pl0, init, pinned, homeOf, h1, h3, ha]
  · intro w; simp only [init]; split <;> simp
  · intro j f hf
    simp only [init] at hf
    split at hf
    · rename_i ha
      simp only [List.mem_singleton] at hf; subst hf
      simp only [pl0, InQ, pinned, homeOf, h1, h3, ha.2, if_true]
      have : j - 1 + 1 = j := by omega
      simp [this]
    · cases hf
  · intro w; simp only [init]; split <;> simp
  · intro w f hf; cases hf
  · intro w; simp [init]
  · intro g q hq; cases hq
  · intro g; simp [init]
  · intro f hf; simp [init, hf]
  · intro w f hf; cases hf
  · intro f hf; cases hf
  · intro f g hf; cases hf
  · intro f hf _
    refine ⟨?_, by simp [init, hf], rfl, rfl⟩
    simp only [pinned, decide_eq_false_iff_not, ne_eq, Decidable.not_not] at hf
    simp [pl0, hf]
  · intro l _
    exact Lock.init.congr (fun w => by simp [State.hold, init, Ph.locks])
  · intro x k _; exact Kn.zero
  · intro f k _ x; exact Kn.zero
  · intro x; rfl
  · intro f _ _; exact ⟨rfl, rfl, fun _ => rfl⟩
  · intro f t g h
    simp only [init, start] at h
    split at h
    · rename_i ht; cases h; exact ht.symm
    · cases h
  · intro f t h
    simp [init, start]
  · intro f e k h
    cases h with
    | wq g h => cases h
    | made u h => cases h
    | push u h => cases h
    | cas u h => cases h
  · intro g
    simp [init, Ph.fin]

/-- Every event is as claimed. -/
theorem good_reach {alg : Nat → Alg} (h : Reach step (init alg) s tr) : ∀ p b q, tr = p ++ b :: q → Good p b := by
  refine (Reach.inv (fun s tr => (∃ pl, Inv s tr pl) ∧ ∀ p b q, tr = p ++ b :: q → Good p b) ⟨⟨_, inv_init alg⟩, by simp⟩ ?_ h).2
  rintro s tr e s' ob _ ⟨⟨pl, hi⟩, hg⟩ hs
  obtain ⟨pl', h1, h2⟩ := fine_step hi hs
  refine ⟨⟨pl', h1⟩, fun p b q he => ?_⟩
  rcases List.append_eq_append_iff.1 he with ⟨a, h3, h4⟩ | ⟨a, h3, h4⟩
  · rw [h3]; exact h2 a b q h4
  · cases a with
    | nil =>
      rw [List.append_nil] at h3
      have := h2 [] b q (by simpa using h4.symm)
      rw [List.append_nil, h3] at this; exact this
    | cons c a =>
      cases h4
      exact hg p b a h3

theorem inv_reach {alg : Nat → Alg} (h : Reach step (init alg) s tr) : ∃ pl, Inv s tr pl :=
  Reach.inv (fun s tr => ∃ pl, Inv s tr pl) ⟨_, inv_init alg⟩
    (fun s tr e s' o _ ⟨pl, hi⟩ hs => by obtain ⟨pl', h1, _⟩ := fine_step hi hs; exact ⟨pl', h1⟩) h

end Verif.WeakFiber
