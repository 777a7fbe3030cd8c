import Verif.MonitorInv

/-!
# Objects made of critical sections: every history happens
-/

namespace Verif.Monitor

open Verif.Rtm (Tid Lock Addr Req Done Hist Prog mine owner value Legal Allowed holding)
open Verif.WeakDrf

variable {Op Res : Type} {lib : Lib Op Res} {V : UProg Op Res}

/-- The accesses of a critical section, one after the other. -/
theorem realise_section (hc : Clean lib V) {h : Hist} {t : Tid} {o : Obj} {op : Op} (hl : Legal (compile lib V) h) (hh : Honest h)
    (hpc : (at_ lib V h t).pc = .sec o op []) : ∀ log, Ran lib o t op (uval (uhist lib V h)) log →
      ∃ h', Legal (compile lib V) h' ∧ Honest h' ∧ uhist lib V h' = uhist lib V h ∧ (∀ l, owner h' l = owner h l) ∧
        (at_ lib V h' t).pc = .sec o op log
  | [], _ => ⟨h, hl, hh, rfl, fun _ => rfl, hpc⟩
  | .got a v :: log, hr => by
    obtain ⟨h', h1, h2, h3, h4, h5⟩ := realise_section hc hl hh hpc log hr.2.2
    have hi := inv_legal hc h1
    refine ⟨(t, .got a v) :: h', ⟨⟨?_, ?_⟩, h1⟩, h2, ?_, h4, ?_⟩
    · change want lib V t (at_ lib V h' t) = _
      simp only [want, h5, hr.1]
    · rw [(hi.pcS t o op log h5).2.2 a (lib.member o t op log a (.inl hr.1)), h3]; exact hr.2.1
    · rw [← h3]; simp [uhist, h5]
    · rw [at_same]; simp only [feed, h5]
  | .put a v :: log, hr => by
    obtain ⟨h', h1, h2, h3, h4, h5⟩ := realise_section hc hl hh hpc log hr.2
    refine ⟨(t, .put a v) :: h', ⟨?_, h1⟩, h2, ?_, h4, ?_⟩
    · change want lib V t (at_ lib V h' t) = _
      simp only [want, h5, hr.1]
    · rw [← h3]; simp [uhist, h5]
    · rw [at_same]; simp only [feed, h5]
  | .acquired _ :: _, hr => hr.elim
  | .released _ :: _, hr => hr.elim
  | .failed _ :: _, hr => hr.elim

theorem realise (hc : Clean lib V) : ∀ {uh : UHist Op Res}, ULegal lib V uh →
    ∃ h, Legal (compile lib V) h ∧ Honest h ∧ uhist lib V h = uh ∧ ∀ l, owner h l = none
  | [], _ => ⟨[], trivial, trivial, rfl, fun _ => rfl⟩
  | (t, e) :: uh, hu => by
    obtain ⟨h, h1, h2, rfl, h4⟩ := realise hc hu.2
    have hi := inv_legal hc h1
    have hns : ∀ o op log, (at_ lib V h t).pc ≠ .sec o op log := by
      intro o op log h5
      have := (hi.own t o).2 ⟨op, log, h5⟩
      rw [h4] at this; cases this
    have huser : pend (uhist lib V h) t = none → (at_ lib V h t).pc = .user := by
      intro hp
      cases hpc : (at_ lib V h t).pc with
      | user => rfl
      | enter o op => have := hi.pcE t o op hpc; rw [hp] at this; cases this
      | sec o op log => exact absurd hpc (hns o op log)
    have hpast := hi.past t
    have hal := hu.1
    cases e with
    | got a v =>
      obtain ⟨hp, hV, hv⟩ := hal
      have hpc := huser hp
      refine ⟨(t, .got a v) :: h, ⟨⟨?_, ?_⟩, h1⟩, h2, by simp [uhist, hpc], h4⟩
      · change want lib V t (at_ lib V h t) = _
        simp only [want, hpc, hpast, hV]
      · rw [hi.user a (hc _ _ _ hu a v (.inl rfl))]; exact hv
    | put a v =>
      obtain ⟨hp, hV⟩ := hal
      have hpc := huser hp
      refine ⟨(t, .put a v) :: h, ⟨?_, h1⟩, h2, by simp [uhist, hpc], h4⟩
      change want lib V t (at_ lib V h t) = _
      simp only [want, hpc, hpast, hV]
    | sect o op log out =>
      obtain ⟨hp, hr, rfl, hout⟩ := hal
      have hin : want lib V t (at_ lib V h t) = some (take lib o op) ∧ (at_ lib V ((t, .acquired o) :: h) t).pc = .sec o op [] ∧
          uhist lib V ((t, .acquired o) :: h) = uhist lib V h := by
        rw [at_same]
        rcases hp with hp | ⟨hp, hV⟩
        · have hpc : (at_ lib V h t).pc = .enter o op := by
            cases hpc : (at_ lib V h t).pc with
            | user => rw [hi.pcU t hpc] at hp; cases hp
            | enter o' op' => rw [hi.pcE t o' op' hpc] at hp; cases hp; rfl
            | sec o op log => exact absurd hpc (hns o op log)
          simp only [want, feed, uhist, hpc, and_self]
        · have hpc := huser hp
          simp only [want, feed, uhist, hpc, hpast, hV, and_self]
      obtain ⟨hq, hpc, huh⟩ := hin
      have hq' : compile lib V t (mine h t) = some (.lock o) ∨ compile lib V t (mine h t) = some (.tryLock o) := by
        change want lib V t (at_ lib V h t) = _ ∨ want lib V t (at_ lib V h t) = _
        rw [hq]
        rcases take_eq (lib := lib) o op with h5 | h5 <;> simp [h5]
      obtain ⟨h', g1, g2, g3, g4, g5⟩ := realise_section (h := (t, .acquired o) :: h) hc ⟨⟨hq', h4 o⟩, h1⟩ h2 hpc log (by rw [huh]; exact hr)
      refine ⟨(t, .released o) :: h', ⟨⟨?_, ?_⟩, g1⟩, g2, ?_, ?_⟩
      · change want lib V t (at_ lib V h' t) = _
        rcases hout with ⟨r, hr⟩ | ⟨op', hr⟩ <;> simp only [want, g5, hr]
      · rw [g4]; simp [owner]
      · rw [← huh, ← g3]; simp [uhist, g5]
      · intro l
        simp only [owner]
        split
        · rfl
        · rename_i hne
          rw [g4]; simp only [owner, hne, if_false]; exact h4 l

end Verif.Monitor
