import Verif.Mutex
import Verif.QueueInv

/-! Invariants of the mutex machine. -/

namespace Verif.Mutex

def regOf : Pc → Option Reg
  | .lockWait ep => some ⟨ep, none⟩
  | .untilWait ep d => some ⟨ep, some d⟩
  | .untilUnlink ep d => some ⟨ep, some d⟩
  | _ => none

/-- Inside `try_lock_until_`. -/
def isUntil : Pc → Bool
  | .untilEntry _ | .untilCS _ | .untilWait _ _ | .untilUnlink _ _ => true
  | _ => false

theorem lockCS_eq (k : Kind) (m : M) (f : Fid) : lockCS k m f =
    if m.owner = some f then
      (if k.isRec = true then .acquired { m with count := m.count + 1 } else .threw .deadlock)
    else if m.owner = none then
      .acquired (if k.isRec = true then { owner := some f, count := 1 } else { m with owner := some f })
    else .block := by
  cases k <;> simp [lockCS, plainLock, timedLock, recLock, recTimedLock, Kind.isRec]

theorem tryCS_eq (k : Kind) (m : M) (f : Fid) : tryCS k m f =
    if m.owner = some f then
      (if k.isRec = true then .go { m with count := m.count + 1 } else .threw .deadlock)
    else if m.owner = none then
      .go (if k.isRec = true then { owner := some f, count := 1 } else { m with owner := some f })
    else .go m := by
  cases k <;> simp only [tryCS, plainTry, timedTry, recTry, recTimedTry, Kind.isRec] <;> grind

theorem untilCS_eq (k : Kind) (m : M) (f : Fid) (hk : k.hasTimed = true) : untilCS k m f =
    if m.owner = some f then
      (if k.isRec = true then .acquired { m with count := m.count + 1 } else .block)
    else if m.owner = none then
      .acquired (if k.isRec = true then { owner := some f, count := 1 } else { m with owner := some f })
    else .block := by
  cases k <;> simp only [untilCS, timedUntil, recTimedUntil, Kind.isRec, Kind.hasTimed] at * <;> grind

theorem unlockCS_eq (k : Kind) (m : M) (f : Fid) : unlockCS k m f =
    if m.owner = some f then
      (if k.isRec = true then
        (if m.count - 1 = 0 then .free { owner := none, count := m.count - 1 }
         else .keep { m with count := m.count - 1 })
       else .free { m with owner := none })
    else .threw .notPermitted := by
  cases k <;> simp only [unlockCS, plainUnlock, timedUnlock, recUnlock, recTimedUnlock, Kind.isRec] <;> grind

/-- The control invariant: wait queue bookkeeping, and who may be where. -/
structure Inv (k : Kind) (s : State) : Prop where
  qi : QInv s.c s.q s.now (fun f => regOf (s.pc f))
  idle : ∀ f, regOf (s.pc f) = none → s.c.ready f = false
  lw : ∀ f ep, s.pc f = .lockWait ep → s.c.epoch f = ep + 1 → s.c.ready f = true
  uw : ∀ f ep d, s.pc f = .untilWait ep d → s.c.epoch f = ep + 1 → s.c.ready f = true
  unl : ∀ f ep d, s.pc f = .untilUnlink ep d → s.c.epoch f = ep + 1 ∧ s.c.ready f = false ∧ d ≤ s.now
  cnt : k.isRec = true → s.m.owner ≠ none → 1 ≤ s.m.count
  tk : ∀ f, isUntil (s.pc f) = true → k.hasTimed = true

theorem inv_init (k : Kind) : Inv k init := by
  constructor
  · exact QInv.init.congr (by intro f; rfl)
  all_goals simp [init, Ctxs.init, isUntil]

theorem Inv.ofEq {k : Kind} {s : State} (h : Inv k s) {pc' : Fid → Pc} {m' : M}
    (hreg : ∀ f, s.pc f ≠ pc' f → regOf (s.pc f) = none ∧ regOf (pc' f) = none)
    (hm : k.isRec = true → m'.owner ≠ none → 1 ≤ m'.count)
    (ht : ∀ f, isUntil (pc' f) = true → k.hasTimed = true) :
    Inv k { s with pc := pc', m := m' } := by
  obtain ⟨qi, h1, h2, h3, h4, h5, h6⟩ := h
  have hr : ∀ f, regOf (pc' f) = regOf (s.pc f) := by
    intro f
    by_cases he : s.pc f = pc' f
    · rw [he]
    · rw [(hreg f he).1, (hreg f he).2]
  have hp : ∀ f, regOf (pc' f) ≠ none → s.pc f = pc' f := by
    intro f hf
    by_cases he : s.pc f = pc' f
    · exact he
    · exact absurd (hreg f he).2 hf
  constructor
  · exact qi.congr hr
  · intro f hf; exact h1 f (by rw [← hr]; exact hf)
  · intro f ep hf; exact h2 f ep (by rw [hp f (by simp only at hf; simp [hf, regOf])]; exact hf)
  · intro f ep d hf; exact h3 f ep d (by rw [hp f (by simp only at hf; simp [hf, regOf])]; exact hf)
  · intro f ep d hf; exact h4 f ep d (by rw [hp f (by simp only at hf; simp [hf, regOf])]; exact hf)
  · exact hm
  · exact ht

/-- Suspending on the wait queue. -/
theorem Inv.block {k : Kind} {s : State} (h : Inv k s) {f : Fid} {p : Pc} {dl : Option Nat}
    (hf : regOf (s.pc f) = none) (hp : regOf p = some ⟨s.c.epoch f + 1, dl⟩) (hu : ∀ ep d, p ≠ .untilUnlink ep d)
    (ht : isUntil p = true → k.hasTimed = true) :
    Inv k { s with c := (enqueue s.c s.q f).1, q := (enqueue s.c s.q f).2, pc := upd s.pc f p } := by
  obtain ⟨qi, h1, h2, h3, h4, h5, h6⟩ := h
  have hpe : ∀ g, upd s.pc f p g = if g = f then p else s.pc g := fun g => rfl
  have hep : ∀ g, (enqueue s.c s.q f).1.epoch g = if g = f then s.c.epoch f + 1 else s.c.epoch g := fun g => rfl
  have hrd : ∀ g, (enqueue s.c s.q f).1.ready g = s.c.ready g := fun g => rfl
  constructor
  · exact qi.enqueue (f := f) (dl := dl) hf (h1 f hf) (by intro g; simp only [hpe]; split <;> simp [hp])
  all_goals simp only [hpe, hep, hrd]
  all_goals first | assumption | grind [regOf, isUntil]

/-- Leaving a wait. -/
theorem Inv.leaveReady {k : Kind} {s : State} (h : Inv k s) {f : Fid} {p : Pc} {r : Reg}
    (hf : regOf (s.pc f) = some r) (hp : regOf p = none) (hr : s.c.ready f = true)
    (hd : ∀ d, r.dl = some d → s.now < d)
    (ht : isUntil p = true → k.hasTimed = true) :
    Inv k { s with c := consumeReady s.c f, pc := upd s.pc f p } := by
  obtain ⟨qi, h1, h2, h3, h4, h5, h6⟩ := h
  have hpe : ∀ g, upd s.pc f p g = if g = f then p else s.pc g := fun g => rfl
  have hep : ∀ g, (consumeReady s.c f).epoch g = s.c.epoch g := fun g => rfl
  have hrd : ∀ g, (consumeReady s.c f).ready g = if g = f then false else s.c.ready g := fun g => rfl
  constructor
  · have hu := qi.unlinked (f := f) hf hr hd
    have := qi.leave (f := f) (reg' := fun g => regOf (upd s.pc f p g)) hf
      (by intro g; simp only [hpe]; split <;> simp [hp])
    rwa [filter_ne_of_not_mem hu] at this
  all_goals simp only [hpe, hep, hrd]
  all_goals first | assumption | grind [regOf, isUntil]

theorem Inv.notify {k : Kind} {s : State} (h : Inv k s) :
    Inv k { s with c := (notifyOne s.c s.q).1, q := (notifyOne s.c s.q).2.1 } := by
  obtain ⟨qi, h1, h2, h3, h4, h5, h6⟩ := h
  have hw := notifyOne_changed s.c s.q
  have hn : ∀ g, _ := fun g (hg : regOf (s.pc g) = none) =>
    notifyOne_frame (c := s.c) (qi.not_mem_of_none hg)
  constructor
  · exact qi.notifyOne
  · intro g hg; rw [(hn g hg).2]; exact h1 g hg
  · intro g; have := hw g; have := qi.notifyOne.bound g; grind [regOf, isUntil]
  · intro g; have := hw g; have := qi.notifyOne.bound g; grind [regOf, isUntil]
  · intro g; have := hw g; have := qi.notifyOne.bound g; grind [regOf, isUntil]
  · exact h5
  · exact h6

theorem inv_run {k : Kind} {s s' : State} {o : List Obs} {f : Fid} (h : Inv k s)
    (hs : run k s f = some (s', o)) : Inv k s' := by
  have tk := h.tk f
  have tk' := h.tk
  have cnt := h.cnt
  simp only [run] at hs
  split at hs
  · cases hs
  · rename_i hp
    rw [lockCS_eq] at hs
    split at hs <;> simp only [Option.some.injEq, Prod.mk.injEq] at hs <;> obtain ⟨rfl, rfl⟩ := hs
    · apply h.ofEq <;> grind [regOf, upd_apply, isUntil]
    · apply h.ofEq
      · grind [regOf, upd_apply]
      · rename_i hm; grind
      · grind [regOf, upd_apply, isUntil]
    · exact h.block (dl := none) (by simp [hp, regOf]) rfl (by simp) (by simp [isUntil])
  · rename_i ep hp
    split at hs <;> simp only [Option.some.injEq, Prod.mk.injEq, reduceCtorEq] at hs
    rename_i hr
    obtain ⟨rfl, rfl⟩ := hs
    exact h.leaveReady (r := ⟨ep, none⟩) (by simp [hp, regOf]) rfl hr (by simp) (by simp [isUntil])
  · rename_i hp
    rw [tryCS_eq] at hs
    split at hs <;> simp only [Option.some.injEq, Prod.mk.injEq] at hs <;> obtain ⟨rfl, rfl⟩ := hs
    · apply h.ofEq <;> grind [regOf, upd_apply, isUntil]
    · apply h.ofEq
      · grind [regOf, upd_apply]
      · rename_i hm; grind
      · grind [regOf, upd_apply, isUntil]
  · rename_i hp
    simp only [Option.some.injEq, Prod.mk.injEq] at hs; obtain ⟨rfl, rfl⟩ := hs
    apply h.ofEq <;> grind [regOf, upd_apply, isUntil]
  · rename_i d hp
    split at hs <;> simp only [Option.some.injEq, Prod.mk.injEq] at hs <;> obtain ⟨rfl, rfl⟩ := hs
    · apply h.ofEq <;> grind [regOf, upd_apply, isUntil]
    · apply h.ofEq <;> grind [regOf, upd_apply, isUntil]
  · rename_i d hp
    rw [untilCS_eq _ _ _ (tk (by simp [hp, isUntil]))] at hs
    split at hs <;> simp only [Option.some.injEq, Prod.mk.injEq] at hs <;> obtain ⟨rfl, rfl⟩ := hs
    · apply h.ofEq <;> grind [regOf, upd_apply, isUntil]
    · apply h.ofEq
      · grind [regOf, upd_apply]
      · rename_i hm; grind
      · grind [regOf, upd_apply, isUntil]
    · exact h.block (dl := some d) (by simp [hp, regOf]) rfl (by simp) (fun _ => tk (by simp [hp, isUntil]))
  · rename_i ep d hp
    split at hs <;> try simp only [reduceCtorEq] at hs
    rename_i hr
    have hreg : regOf (s.pc f) = some ⟨ep, some d⟩ := by simp [hp, regOf]
    split at hs <;> simp only [Option.some.injEq, Prod.mk.injEq] at hs <;> obtain ⟨rfl, rfl⟩ := hs
    · rename_i hd
      exact h.leaveReady (r := ⟨ep, some d⟩) hreg rfl hr (by simpa using hd)
        (fun _ => tk (by simp [hp, isUntil]))
    · rename_i hd
      obtain ⟨qi, h1, h2, h3, h4, h5, h6⟩ := h
      have hb := qi.bound f _ hreg
      have hl := qi.live f _ hreg
      constructor
      · refine QInv.congr (reg := fun g => regOf (s.pc g))
          (qi.frame (Nat.le_refl _) (by simp [consumeReady]) ?_) ?_
        · intro g r _ _ hx; simp only [consumeReady, upd_apply]; split <;> simp_all
        · intro g; simp only [upd_apply]; split <;> simp_all [regOf]
      all_goals simp only [consumeReady, upd_apply]
      all_goals first | assumption | grind [regOf, isUntil]
  · rename_i ep d hp
    simp only [Option.some.injEq, Prod.mk.injEq] at hs; obtain ⟨rfl, rfl⟩ := hs
    have hreg : regOf (s.pc f) = some ⟨ep, some d⟩ := by simp [hp, regOf]
    obtain ⟨qi, h1, h2, h3, h4, h5, h6⟩ := h
    have hu := h4 f ep d hp
    constructor
    · have := qi.leave (f := f) (reg' := fun g => regOf (upd s.pc f .idle g)) hreg
          (by intro g; simp only [upd_apply]; split <;> simp [regOf])
      rwa [consumeReady_of_not hu.2.1] at this
    all_goals simp only [upd_apply]
    all_goals first | assumption | grind [regOf, isUntil]
  · rename_i hp
    rw [unlockCS_eq] at hs
    split at hs <;> simp only [Option.some.injEq, Prod.mk.injEq] at hs <;> obtain ⟨rfl, rfl⟩ := hs
    · apply h.ofEq <;> grind [regOf, upd_apply, isUntil]
    · apply h.ofEq
      · grind [regOf, upd_apply]
      · rename_i hm; grind
      · grind [regOf, upd_apply, isUntil]
    · refine Inv.ofEq (s := { s with c := (notifyOne s.c s.q).1, q := (notifyOne s.c s.q).2.1 }) h.notify ?_ ?_ ?_
      · grind [regOf, upd_apply]
      · rename_i hm; grind
      · grind [regOf, upd_apply, isUntil]

theorem inv_step {k : Kind} {s s' : State} {o : List Obs} {e : Event} (h : Inv k s)
    (hs : step k s e = some (s', o)) : Inv k s' := by
  cases e with
  | call f op =>
    simp only [step] at hs
    split at hs <;> simp only [Option.some.injEq, Prod.mk.injEq, reduceCtorEq] at hs
    rename_i hg
    obtain ⟨rfl, rfl⟩ := hs
    have tk := h.tk
    apply h.ofEq
    · cases op <;> grind [regOf, upd_apply, entry]
    · exact h.cnt
    · cases op <;> grind [isUntil, upd_apply, entry, offered]
  | run f => exact inv_run h hs
  | timer f =>
    simp only [step] at hs
    split at hs <;> try simp only [reduceCtorEq] at hs
    rename_i ep d hp
    split at hs <;> simp only [Option.some.injEq, Prod.mk.injEq, reduceCtorEq] at hs
    rename_i hd
    obtain ⟨rfl, rfl⟩ := hs
    obtain ⟨qi, h1, h2, h3, h4, h5, h6⟩ := h
    have hreg : regOf (s.pc f) = some ⟨ep, some d⟩ := by simp [hp, regOf]
    have hw := wake_changed s.c ⟨f, ep⟩
    have hn : ∀ g, g ≠ f → _ := fun g (hg : g ≠ f) => wake_epoch_ne s.c ⟨f, ep⟩ (f := g) hg
    constructor
    · exact qi.timer (f := f) (r := ⟨ep, some d⟩) hreg rfl hd
    all_goals first
      | assumption
      | (simp only; intro g; have := hw g; have := hn g; have := qi.bound g; grind [regOf])
  | tick n =>
    simp only [step, Option.some.injEq, Prod.mk.injEq] at hs
    obtain ⟨rfl, rfl⟩ := hs
    obtain ⟨qi, h1, h2, h3, h4, h5, h6⟩ := h
    constructor
    · exact qi.frame (by simp) (by simp) (by simp)
    all_goals first | assumption | (simp only; grind)
  | elsewhere f n =>
    simp only [step] at hs
    split at hs <;> simp only [Option.some.injEq, Prod.mk.injEq, reduceCtorEq] at hs
    rename_i hg
    obtain ⟨rfl, rfl⟩ := hs
    obtain ⟨qi, h1, h2, h3, h4, h5, h6⟩ := h
    constructor
    · refine qi.frame (Nat.le_refl _) ?_ (by simp)
      intro g hgg; simp only [upd_apply]; split
      · subst_vars; simp [hg, regOf] at hgg
      · rfl
    all_goals first | assumption | (intro g; simp only [upd_apply]; grind)

theorem reach_inv {k : Kind} {s : State} {tr : List Obs} (h : Reach (step k) init s tr) : Inv k s :=
  Reach.inv (fun s _ => Inv k s) (inv_init k) (fun _ _ _ _ _ _ hi hs => inv_step hi hs) h

end Verif.Mutex
