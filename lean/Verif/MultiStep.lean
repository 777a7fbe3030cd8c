import Verif.MultiQ

/-!
# Invariants of `Verif/Multi.lean`: all steps
-/

namespace Verif.Multi

open Verif.Sch (Cx Tid set set_apply set_same set_other)

variable {s s' : State} {l : Spec}

section
attribute [local grind] Pc.held Pc.taken Pc.why Verif.Sch.set after own pinned

set_option maxHeartbeats 4000000 in
theorem inv_spawn (h : Inv s l) {t : Tid} {n : Nat} {x : Cx} (hr : s.run t = some x) (hp : s.pc t = .user) (hu : s.st (.work n) = .unborn) :
    ok l (.spawned t (.work n)) ∧
      Inv { s with st := set s.st (.work n) .live, wq := upd s.wq t (s.wq t ++ [Cx.work n]), pc := upd s.pc t (.aw (.work n)) } (after l (.spawned t (.work n))) := by
  have hs : ok l (.spawned t (.work n)) := by cases h; simp only [ok, Spec.free]; grind
  refine ⟨hs, ?_⟩
  simp only [ok, Spec.free] at hs
  have h0 := h
  cases h
  constructor
  case out =>
    intro z hz
    simp only [after, set_apply] at hz
    by_cases hzn : z = .work n
    · exact .inr ⟨t, by simp [Pc.held, hzn]⟩
    · rcases h0.out z (by grind) with ⟨u, hu⟩ | ⟨u, hu⟩
      · exact .inl ⟨u, hu⟩
      · refine .inr ⟨u, ?_⟩
        have hut : u ≠ t := by grind
        simpa [upd_apply', hut] using hu
  all_goals first | assumption | (simp only [upd_apply', set_apply, after, ite_held, ite_taken, ite_why]; grind)

set_option maxHeartbeats 4000000 in
theorem inv_direct (h : Inv s l) {t : Tid} {n : Nat} {x : Cx} (hr : s.run t = some x) (hp : s.pc t = .user) (hu : s.st (.work n) = .unborn)
    (hx : x ≠ .disp t) :
    ok l (.spawned t (.work n)) ∧ ok (after l (.spawned t (.work n))) (.direct t (.work n)) ∧
      Inv { s with st := set s.st (.work n) .live, wq := upd s.wq t (s.wq t ++ [Cx.work n]), run := upd s.run t (some (.work n)), pc := upd s.pc t (.put .yield x) }
        (after (after l (.spawned t (.work n))) (.direct t (.work n))) := by
  have hs : ok l (.spawned t (.work n)) := by cases h; simp only [ok, Spec.free]; grind
  have hs2 : ok (after l (.spawned t (.work n))) (.direct t (.work n)) := by
    cases h; simp only [ok, Spec.free, after, set_apply]; grind
  refine ⟨hs, hs2, ?_⟩
  simp only [ok, Spec.free] at hs
  have h0 := h
  cases h
  constructor
  case out =>
    intro z hz
    simp only [after, set_apply] at hz
    by_cases hzy : z = .work n
    · exact .inl ⟨t, by simp [hzy]⟩
    · rcases h0.out z (by grind) with ⟨u, hu⟩ | ⟨u, hu⟩
      · by_cases hut : u = t
        · refine .inr ⟨t, ?_⟩
          have : x = z := by grind
          simp [Pc.held, this]
        · exact .inl ⟨u, by simpa [upd_apply', hut] using hu⟩
      · refine .inr ⟨u, ?_⟩
        have hut : u ≠ t := by grind
        simpa [upd_apply', hut] using hu
  all_goals first | assumption | (simp only [upd_apply', set_apply, after, ite_held, ite_taken, ite_why]; grind)
end

/-- A thread that is inside the library still runs something. -/
theorem Inv.runs (h : Inv s l) {t : Tid} (hp : s.pc t ≠ .user) : ∃ x, s.run t = some x := by
  cases hr : s.run t with
  | none => exact absurd (h.dead t hr) hp
  | some x => exact ⟨x, rfl⟩

/-- The dispatcher of a thread is always at hand. -/
theorem Inv.disp_near (h : Inv s l) {t : Tid} (hr : s.run t ≠ none) :
    s.run t = some (.disp t) ∨ .disp t ∈ s.loc t ∨ (s.pc t).held = some (.disp t) ∨ (s.pc t).taken = some (.disp t) := by
  have hown : ∀ u, own u (.disp t) → u = t := by intro u hu; simp [own] at hu; exact hu.symm
  rcases h.live _ (h.dl t hr) with hs | hs | ⟨u, hs⟩
  · rcases h.out _ hs with ⟨u, hu⟩ | ⟨u, hu⟩
    · have := hown u (h.homeR u _ hu rfl); subst this; exact .inl hu
    · have := hown u (h.homeH u _ hu rfl); subst this; exact .inr (.inr (.inl hu))
  · rcases h.qu _ hs with hm | ⟨u, hu⟩
    · exact absurd (h.shW _ hm) (by simp [pinned])
    · have := hown u (h.homeL u _ hu rfl); subst this; exact .inr (.inl hu)
  · have hu := (h.tak u _).2 hs
    have := hown u (h.homeT u _ hu rfl); subst this; exact .inr (.inr (.inr hu))

/-- Only the dispatcher finds no ready fiber. -/
theorem Inv.empty (h : Inv s l) {t : Tid} {r : Why} (hl : s.loc t = []) (hw : (s.pc t).why = some r) (hh : (s.pc t).held = none) (ht : (s.pc t).taken = none) :
    r = .disp := by
  obtain ⟨x, hx⟩ := h.runs (t := t) (by intro hp; rw [hp] at hw; simp [Pc.why] at hw)
  rcases h.disp_near (t := t) (by simp [hx]) with hd | hd | hd | hd
  · exact (h.why t r _ hw hd).1.2 rfl
  · simp [hl] at hd
  · simp [hh] at hd
  · simp [ht] at hd

theorem inv_nothing (h : Inv s l) {t : Tid} {r : Why} (hw : (s.pc t).why = some r) (hh : (s.pc t).held = none) (ht : (s.pc t).taken = none)
    (hr : r = .disp) : (nothing s t r).2 = [] ∧ Inv (nothing s t r).1 l := by
  obtain ⟨x, hx⟩ := h.runs (t := t) (by intro hp; rw [hp] at hw; simp [Pc.why] at hw)
  have hd := (h.why t r x hw hx).1.1 hr
  simp only [nothing, hr, if_true]
  exact ⟨trivial, inv_pc h hx hh ht rfl rfl (by simp [Pc.why]) (fun _ => hd) (by simp)⟩

theorem inv_go (h : Inv s l) {t : Tid} {o : List Obs} (hs : go s t = some (s', o)) : Runs l o ∧ Inv s' (o.foldl after l) := by
  unfold go at hs
  cases hp : s.pc t with
  | user => simp [hp] at hs
  | steal r c => simp [hp] at hs
  | idle => simp [hp] at hs
  | aw x =>
    simp only [hp] at hs
    cases hx : pinned x with
    | true =>
      simp only [hx, if_true, Option.some.injEq, Prod.mk.injEq] at hs
      obtain ⟨rfl, rfl⟩ := hs
      have := inv_awP h hp hx
      exact ⟨⟨this.1, trivial⟩, this.2⟩
    | false =>
      simp only [hx, Bool.false_eq_true, if_false, Option.some.injEq, Prod.mk.injEq] at hs
      obtain ⟨rfl, rfl⟩ := hs
      exact ⟨trivial, inv_awW h hp hx⟩
  | push x =>
    simp only [hp] at hs
    cases hm : s.stealing with
    | true =>
      simp only [hm, if_true, Option.some.injEq, Prod.mk.injEq] at hs
      obtain ⟨rfl, rfl⟩ := hs
      have := inv_pushL h hp hm
      rw [hm] at this
      exact ⟨⟨this.1, trivial⟩, this.2⟩
    | false =>
      simp only [hm, Bool.false_eq_true, if_false, Option.some.injEq, Prod.mk.injEq] at hs
      obtain ⟨rfl, rfl⟩ := hs
      have := inv_pushS h hp hm
      rw [hm] at this
      exact ⟨⟨this.1, trivial⟩, this.2⟩
  | pick r =>
    have hw : (s.pc t).why = some r := by simp [hp, Pc.why]
    have hh : (s.pc t).held = none := by simp [hp, Pc.held]
    have ht : (s.pc t).taken = none := by simp [hp, Pc.taken]
    obtain ⟨x, hx⟩ := h.runs (t := t) (by simp [hp])
    simp only [hp] at hs
    cases hm : s.stealing with
    | true =>
      simp only [hm, if_true] at hs
      cases hl : s.loc t with
      | nil =>
        simp only [hl, Option.some.injEq, Prod.mk.injEq] at hs
        obtain ⟨rfl, rfl⟩ := hs
        have hr := h.empty hl hw hh ht
        have := inv_pc (p := .steal r 0) h hx hh ht rfl rfl (by intro r' hr'; simp [Pc.why] at hr'; subst hr'; exact h.why t r x hw hx) (by simp) (by intro r' c he; simp at he; rw [← he.1]; exact hr)
        rw [hm] at this
        exact ⟨trivial, this⟩
      | cons y q =>
        simp only [hl, Option.some.injEq, Prod.mk.injEq] at hs
        obtain ⟨rfl, rfl⟩ := hs
        have := inv_takeL h hx hh ht hw hl (.inl rfl)
        rw [hm] at this
        exact ⟨⟨this.1, trivial⟩, this.2⟩
    | false =>
      simp only [hm, Bool.false_eq_true, if_false] at hs
      cases hl : s.shared with
      | nil =>
        simp only [hl, Option.some.injEq, Prod.mk.injEq] at hs
        obtain ⟨rfl, rfl⟩ := hs
        have := inv_pc (p := .lpick r) h hx hh ht rfl rfl (by intro r' hr'; simp [Pc.why] at hr'; subst hr'; exact h.why t r x hw hx) (by simp) (by simp)
        rw [hm, hl] at this
        exact ⟨trivial, this⟩
      | cons y q =>
        simp only [hl, Option.some.injEq, Prod.mk.injEq] at hs
        obtain ⟨rfl, rfl⟩ := hs
        have := inv_takeS h hx hh ht hw hl
        rw [hm] at this
        exact ⟨⟨this.1, trivial⟩, this.2⟩
  | lpick r =>
    have hw : (s.pc t).why = some r := by simp [hp, Pc.why]
    have hh : (s.pc t).held = none := by simp [hp, Pc.held]
    have ht : (s.pc t).taken = none := by simp [hp, Pc.taken]
    obtain ⟨x, hx⟩ := h.runs (t := t) (by simp [hp])
    simp only [hp] at hs
    cases hl : s.loc t with
    | nil =>
      simp only [hl, Option.some.injEq] at hs
      have := inv_nothing h hw hh ht (h.empty hl hw hh ht)
      rw [hs] at this
      obtain ⟨rfl, h2⟩ := this
      exact ⟨trivial, h2⟩
    | cons y q =>
      simp only [hl, Option.some.injEq, Prod.mk.injEq] at hs
      obtain ⟨rfl, rfl⟩ := hs
      have := inv_takeL h hx hh ht hw hl (.inl rfl)
      exact ⟨⟨this.1, trivial⟩, this.2⟩
  | got r y =>
    obtain ⟨x, hx⟩ := h.runs (t := t) (by simp [hp])
    simp only [hp, hx, Option.some.injEq, Prod.mk.injEq] at hs
    obtain ⟨rfl, rfl⟩ := hs
    cases hy : pinned y with
    | true =>
      have := inv_gotP h hp hx hy
      exact ⟨⟨this.1, trivial⟩, by simpa [hy] using this.2⟩
    | false =>
      have := inv_gotW h hp hx hy
      exact ⟨⟨this.1, trivial⟩, by simpa [hy] using this.2⟩
  | put r x =>
    cases r with
    | yield =>
      simp only [hp, Option.some.injEq, Prod.mk.injEq] at hs
      obtain ⟨rfl, rfl⟩ := hs
      exact ⟨trivial, inv_yield h hp⟩
    | disp =>
      simp only [hp, Option.some.injEq, Prod.mk.injEq] at hs
      obtain ⟨rfl, rfl⟩ := hs
      exact ⟨trivial, inv_yield h hp⟩
    | block =>
      simp only [hp, Option.some.injEq, Prod.mk.injEq] at hs
      obtain ⟨rfl, rfl⟩ := hs
      have := inv_block h hp
      exact ⟨⟨this.1, trivial⟩, this.2⟩
    | finish =>
      simp only [hp, Option.some.injEq, Prod.mk.injEq] at hs
      obtain ⟨rfl, rfl⟩ := hs
      have := inv_done h hp
      exact ⟨⟨this.1, trivial⟩, this.2⟩
    | exit =>
      simp only [hp, Option.some.injEq, Prod.mk.injEq] at hs
      obtain ⟨rfl, rfl⟩ := hs
      have := inv_exit h hp
      exact ⟨⟨this.1, trivial⟩, this.2⟩

theorem inv_step (h : Inv s l) {e : Event} {o : List Obs} (hs : step s e = some (s', o)) : Runs l o ∧ Inv s' (o.foldl after l) := by
  cases e with
  | thread t =>
    simp only [step] at hs
    split at hs
    · rename_i hc
      simp only [Option.some.injEq, Prod.mk.injEq] at hs
      obtain ⟨rfl, rfl⟩ := hs
      have := inv_thread h hc.1
      exact ⟨⟨this.1, trivial⟩, this.2⟩
    · simp at hs
  | spawn t n d =>
    simp only [step] at hs
    split at hs
    · rename_i x hr hp
      split at hs
      · rename_i hc
        cases d with
        | true =>
          simp only [if_true, Option.some.injEq, Prod.mk.injEq] at hs
          obtain ⟨rfl, rfl⟩ := hs
          have := inv_direct h hr hp hc.1 hc.2
          exact ⟨⟨this.1, this.2.1, trivial⟩, this.2.2⟩
        | false =>
          simp only [Bool.false_eq_true, if_false, Option.some.injEq, Prod.mk.injEq] at hs
          obtain ⟨rfl, rfl⟩ := hs
          have := inv_spawn h hr hp hc.1
          exact ⟨⟨this.1, trivial⟩, this.2⟩
      · simp at hs
    · simp at hs
  | wake t x =>
    simp only [step] at hs
    split at hs
    · rename_i y hr hp
      split at hs
      · rename_i hc
        simp only [Option.some.injEq, Prod.mk.injEq] at hs
        obtain ⟨rfl, rfl⟩ := hs
        have := inv_wake h hr hp hc.1 hc.2
        exact ⟨⟨this.1, trivial⟩, this.2⟩
      · simp at hs
    · simp at hs
  | call t r =>
    simp only [step] at hs
    split at hs
    · rename_i x hr hp
      split at hs
      · rename_i hc
        simp only [Option.some.injEq, Prod.mk.injEq] at hs
        obtain ⟨rfl, rfl⟩ := hs
        refine ⟨trivial, inv_pc h hr (by simp [hp, Pc.held]) (by simp [hp, Pc.taken]) rfl rfl ?_ (by simp) (by simp)⟩
        intro r' hr'
        simp only [Pc.why, Option.some.injEq] at hr'
        subst hr'
        have hown := h.homeR t x hr
        cases r <;> simp_all [mayCall, own, pinned] <;> grind
      · simp at hs
    · simp at hs
  | disp t =>
    simp only [step] at hs
    split at hs
    · rename_i hc
      split at hs
      · rename_i hd
        simp only [Option.some.injEq, Prod.mk.injEq] at hs
        obtain ⟨rfl, rfl⟩ := hs
        have := inv_end h hc.1 hc.2 hd.1 hd.2
        exact ⟨⟨this.1, trivial⟩, this.2⟩
      · simp only [Option.some.injEq, Prod.mk.injEq] at hs
        obtain ⟨rfl, rfl⟩ := hs
        refine ⟨trivial, inv_pc h hc.1 (by rcases hc.2 with hp | hp <;> simp [hp, Pc.held]) (by rcases hc.2 with hp | hp <;> simp [hp, Pc.taken]) rfl rfl ?_ (by simp) (by simp)⟩
        intro r' hr'
        simp only [Pc.why, Option.some.injEq] at hr'
        subst hr'
        simp
    · simp at hs
  | go t => exact inv_go h hs
  | draw t id =>
    simp only [step] at hs
    split at hs
    · rename_i r c hp
      have hw : (s.pc t).why = some r := by simp [hp, Pc.why]
      have hh : (s.pc t).held = none := by simp [hp, Pc.held]
      have ht : (s.pc t).taken = none := by simp [hp, Pc.taken]
      obtain ⟨x, hx⟩ := h.runs (t := t) (by simp [hp])
      have hd := h.st r c t hp
      have hstay : Inv { s with pc := upd s.pc t (.steal r (c + 1)) } l :=
        inv_pc h hx hh ht rfl rfl (by intro r' hr'; simp [Pc.why] at hr'; subst hr'; exact h.why t r x hw hx) (by simp) (by intro r' c he; simp at he; rw [← he.1]; exact hd)
      have hno := inv_nothing h hw hh ht hd
      split at hs
      · split at hs
        · simp only [Option.some.injEq, Prod.mk.injEq] at hs
          obtain ⟨rfl, rfl⟩ := hs
          exact ⟨trivial, hstay⟩
        · split at hs
          · rename_i y q hl
            split at hs
            · split at hs
              · simp only [Option.some.injEq, Prod.mk.injEq] at hs
                obtain ⟨rfl, rfl⟩ := hs
                exact ⟨trivial, hstay⟩
              · simp only [Option.some.injEq] at hs
                rw [hs] at hno
                obtain ⟨rfl, h2⟩ := hno
                exact ⟨trivial, h2⟩
            · rename_i hy
              simp only [Option.some.injEq, Prod.mk.injEq] at hs
              obtain ⟨rfl, rfl⟩ := hs
              have := inv_takeL h hx hh ht hw hl (.inr (by simpa using hy))
              exact ⟨⟨this.1, trivial⟩, this.2⟩
          · split at hs
            · simp only [Option.some.injEq, Prod.mk.injEq] at hs
              obtain ⟨rfl, rfl⟩ := hs
              exact ⟨trivial, hstay⟩
            · simp only [Option.some.injEq] at hs
              rw [hs] at hno
              obtain ⟨rfl, h2⟩ := hno
              exact ⟨trivial, h2⟩
      · simp at hs
    · simp at hs

theorem reach_inv {st : Bool} {n : Nat} {s : State} {tr : List Obs} (h : Reach step (init st n) s tr) : Runs .init tr ∧ Inv s (replay tr) := by
  induction h with
  | refl => exact ⟨trivial, inv_init st n⟩
  | tail e _ hs ih =>
    have := inv_step ih.2 hs
    exact ⟨Runs.append ih.1 this.1, by rw [replay, List.foldl_append]; exact this.2⟩

end Verif.Multi
