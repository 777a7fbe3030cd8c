import Verif.Monitor
import Verif.WeakDrfInv

/-!
# Objects made of critical sections: the invariant
-/

namespace Verif.Monitor

open Verif.Rtm (Tid Lock Addr Req Done Hist Prog mine owner value Legal Allowed holding)
open Verif.WeakDrf

variable {Op Res : Type} {lib : Lib Op Res} {V : UProg Op Res}

theorem after_congr {m m' : Addr → Nat} {a : Addr} (h : m a = m' a) : ∀ l : List Done, after m l a = after m' l a
  | [] => h
  | .put b v :: l => by simp only [after]; rw [after_congr h l]
  | .got _ _ :: l => after_congr h l
  | .acquired _ :: l => after_congr h l
  | .released _ :: l => after_congr h l
  | .failed _ :: l => after_congr h l

theorem ran_congr {m m' : Addr → Nat} {o : Obj} {t : Tid} {op : Op} (h : ∀ a, lib.home a = some o → m a = m' a) :
    ∀ {l : List Done}, Ran lib o t op m l → Ran lib o t op m' l
  | [], _ => trivial
  | .put _ _ :: _, hr => ⟨hr.1, ran_congr h hr.2⟩
  | .got a _ :: l, hr => ⟨hr.1, by rw [← after_congr (h a (lib.member o t op l a (.inl hr.1))) l]; exact hr.2.1, ran_congr h hr.2.2⟩
  | .acquired _ :: _, hr => hr.elim
  | .released _ :: _, hr => hr.elim
  | .failed _ :: _, hr => hr.elim

/-- A section changes members of its object only. -/
theorem after_home {m : Addr → Nat} {o : Obj} {t : Tid} {op : Op} {a : Addr} (ha : lib.home a ≠ some o) :
    ∀ {l : List Done}, Ran lib o t op m l → after m l a = m a
  | [], _ => rfl
  | .put b v :: l, hr => by
    have hb := lib.member o t op l b (.inr ⟨v, hr.1⟩)
    have : b ≠ a := fun h => ha (h ▸ hb)
    simp only [after, this, if_false]
    exact after_home ha hr.2
  | .got _ _ :: _, hr => by simp only [after]; exact after_home ha hr.2.2
  | .acquired _ :: _, hr => hr.elim
  | .released _ :: _, hr => hr.elim
  | .failed _ :: _, hr => hr.elim

/-- Where thread `t` is after a history. -/
abbrev at_ (lib : Lib Op Res) (V : UProg Op Res) (h : Hist) (t : Tid) : Th Op Res := th lib V t (mine h t)

theorem at_other {t u : Tid} (hu : u ≠ t) (d : Done) (h : Hist) : at_ lib V ((t, d) :: h) u = at_ lib V h u := by
  unfold at_; rw [mine_cons_other hu]

theorem at_same (t : Tid) (d : Done) (h : Hist) : at_ lib V ((t, d) :: h) t = feed lib V t (at_ lib V h t) d := by
  unfold at_; rw [mine_cons_same]; rfl

theorem upast_other {t u : Tid} (hu : u ≠ t) (e : Ev Op Res) (h : UHist Op Res) : upast ((t, e) :: h) u = upast h u := by
  have : ¬ t = u := fun h => hu h.symm
  simp [upast, this]

theorem pend_other {t u : Tid} (hu : u ≠ t) (e : Ev Op Res) (h : UHist Op Res) : pend ((t, e) :: h) u = pend h u := by
  have : ¬ t = u := fun h => hu h.symm
  simp [pend, this]

structure Inv (lib : Lib Op Res) (V : UProg Op Res) (h : Hist) : Prop where
  legal : ULegal lib V (uhist lib V h)
  past : ∀ t, (at_ lib V h t).past = upast (uhist lib V h) t
  pcU : ∀ t, (at_ lib V h t).pc = .user → pend (uhist lib V h) t = none
  pcE : ∀ t o op, (at_ lib V h t).pc = .enter o op → pend (uhist lib V h) t = some (o, op)
  pcS : ∀ t o op log, (at_ lib V h t).pc = .sec o op log →
    (pend (uhist lib V h) t = some (o, op) ∨ (pend (uhist lib V h) t = none ∧ V t (upast (uhist lib V h) t) = some (.call o op))) ∧
      Ran lib o t op (uval (uhist lib V h)) log ∧ ∀ a, lib.home a = some o → value h a = after (uval (uhist lib V h)) log a
  own : ∀ t o, owner h o = some t ↔ ∃ op log, (at_ lib V h t).pc = .sec o op log
  free : ∀ a o, lib.home a = some o → owner h o = none → value h a = uval (uhist lib V h) a
  user : ∀ a, lib.home a = none → value h a = uval (uhist lib V h) a

/-- The user's code accesses data of the user only. -/
def Clean (lib : Lib Op Res) (V : UProg Op Res) : Prop :=
  ∀ t e h, ULegal lib V ((t, e) :: h) → ∀ a v, e = .got a v ∨ e = .put a v → lib.home a = none

theorem inv_init : Inv lib V [] := by
  constructor <;> simp [at_, mine, th, uhist, upast, pend, owner, value, uval, ULegal]

/-- Not a new event for the user. -/
theorem inv_quiet {h : Hist} {t : Tid} {d : Done} (hi : Inv lib V h) (hu : uhist lib V ((t, d) :: h) = uhist lib V h)
    (hpast : (at_ lib V ((t, d) :: h) t).past = (at_ lib V h t).past)
    (hU : (at_ lib V ((t, d) :: h) t).pc ≠ .user)
    (hE : ∀ o op, (at_ lib V ((t, d) :: h) t).pc ≠ .enter o op)
    (hS : ∀ o op log, (at_ lib V ((t, d) :: h) t).pc = .sec o op log →
      (pend (uhist lib V h) t = some (o, op) ∨ (pend (uhist lib V h) t = none ∧ V t (upast (uhist lib V h) t) = some (.call o op))) ∧
        Ran lib o t op (uval (uhist lib V h)) log ∧ ∀ a, lib.home a = some o → value ((t, d) :: h) a = after (uval (uhist lib V h)) log a)
    (hown : ∀ u o, owner ((t, d) :: h) o = some u ↔ ∃ op log, (at_ lib V ((t, d) :: h) u).pc = .sec o op log)
    (hval : ∀ a, (∀ o, lib.home a = some o → owner ((t, d) :: h) o ≠ some t) → value ((t, d) :: h) a = value h a)
    (hfree : ∀ o, owner ((t, d) :: h) o = none → owner h o = none) : Inv lib V ((t, d) :: h) := by
  refine ⟨?_, ?_, ?_, ?_, ?_, hown, ?_, ?_⟩
  · rw [hu]; exact hi.legal
  · intro u
    rw [hu]
    by_cases hut : u = t
    · subst hut; rw [hpast]; exact hi.past u
    · rw [at_other hut]; exact hi.past u
  · intro u hpc
    rw [hu]
    by_cases hut : u = t
    · subst hut; exact absurd hpc hU
    · rw [at_other hut] at hpc; exact hi.pcU u hpc
  · intro u o op hpc
    rw [hu]
    by_cases hut : u = t
    · subst hut; exact absurd hpc (hE o op)
    · rw [at_other hut] at hpc; exact hi.pcE u o op hpc
  · intro u o op log hpc
    rw [hu]
    by_cases hut : u = t
    · subst hut; exact hS o op log hpc
    · have hpc' := hpc
      rw [at_other hut] at hpc
      obtain ⟨h1, h2, h3⟩ := hi.pcS u o op log hpc
      refine ⟨h1, h2, fun a ha => ?_⟩
      rw [hval a, h3 a ha]
      intro o' ho' hc
      rw [ha] at ho'; cases ho'
      rw [(hown u o).2 ⟨op, log, hpc'⟩] at hc
      exact hut (Option.some.inj hc)
  · intro a o ha ho
    rw [hu, hval a, hi.free a o ha (hfree o ho)]
    intro o' ho' hc
    rw [ha] at ho'; cases ho'
    rw [ho] at hc; cases hc
  · intro a ha
    rw [hu, hval a, hi.user a ha]
    intro o' ho'
    rw [ha] at ho'; cases ho'

/-- An access of the user's code. -/
theorem inv_access {h : Hist} {t : Tid} {d : Done} {e : Ev Op Res} (hc : Clean lib V) (hi : Inv lib V h)
    (he : (∃ a v, d = .got a v ∧ e = .got a v) ∨ ∃ a v, d = .put a v ∧ e = .put a v)
    (hu : uhist lib V ((t, d) :: h) = (t, e) :: uhist lib V h)
    (hpc : (at_ lib V h t).pc = .user) (hal : UAllowed lib V (uhist lib V h) (t, e)) : Inv lib V ((t, d) :: h) := by
  have hl : ULegal lib V ((t, e) :: uhist lib V h) := ⟨hal, hi.legal⟩
  have hfeed : (at_ lib V ((t, d) :: h) t).pc = .user ∧ (at_ lib V ((t, d) :: h) t).past = upast ((t, e) :: uhist lib V h) t := by
    rw [at_same]
    have := hi.past t
    rcases he with ⟨a, v, rfl, rfl⟩ | ⟨a, v, rfl, rfl⟩ <;> simp [feed, hpc, upast, this]
  have hown : ∀ o, owner ((t, d) :: h) o = owner h o := by
    rcases he with ⟨a, v, rfl, rfl⟩ | ⟨a, v, rfl, rfl⟩ <;> intro o <;> rfl
  have hv : ∀ a, lib.home a ≠ none → value ((t, d) :: h) a = value h a ∧ uval ((t, e) :: uhist lib V h) a = uval (uhist lib V h) a := by
    intro a ha
    rcases he with ⟨b, v, rfl, rfl⟩ | ⟨b, v, rfl, rfl⟩
    · exact ⟨rfl, rfl⟩
    · have hb := hc _ _ _ hl b v (.inr rfl)
      have : b ≠ a := fun h => ha (h ▸ hb)
      simp [value, uval, this]
  refine ⟨by rw [hu]; exact hl, ?_, ?_, ?_, ?_, ?_, ?_, ?_⟩
  · intro u
    rw [hu]
    by_cases hut : u = t
    · subst hut; exact hfeed.2
    · rw [at_other hut, upast_other hut]; exact hi.past u
  · intro u hp
    rw [hu]
    by_cases hut : u = t
    · subst hut
      rcases he with ⟨a, v, rfl, rfl⟩ | ⟨a, v, rfl, rfl⟩ <;> simp [pend]
    · rw [at_other hut] at hp; rw [pend_other hut]; exact hi.pcU u hp
  · intro u o op hp
    rw [hu]
    by_cases hut : u = t
    · subst hut; rw [hfeed.1] at hp; cases hp
    · rw [at_other hut] at hp; rw [pend_other hut]; exact hi.pcE u o op hp
  · intro u o op log hp
    rw [hu]
    by_cases hut : u = t
    · subst hut; rw [hfeed.1] at hp; cases hp
    · rw [at_other hut] at hp
      rw [pend_other hut, upast_other hut]
      obtain ⟨h1, h2, h3⟩ := hi.pcS u o op log hp
      have hvo : ∀ a, lib.home a = some o → uval (uhist lib V h) a = uval ((t, e) :: uhist lib V h) a :=
        fun a ha => ((hv a (by rw [ha]; simp)).2).symm
      refine ⟨h1, ran_congr hvo h2, fun a ha => ?_⟩
      rw [(hv a (by rw [ha]; simp)).1, h3 a ha, after_congr (hvo a ha)]
  · intro u o
    rw [hown]
    by_cases hut : u = t
    · subst hut
      rw [hi.own, hpc, hfeed.1]
    · rw [at_other hut]; exact hi.own u o
  · intro a o ha ho
    rw [hown] at ho
    obtain ⟨h1, h2⟩ := hv a (by rw [ha]; simp)
    rw [hu, h1, h2]; exact hi.free a o ha ho
  · intro a ha
    rw [hu]
    rcases he with ⟨b, v, rfl, rfl⟩ | ⟨b, v, rfl, rfl⟩
    · simp only [value, uval]; exact hi.user a ha
    · simp only [value, uval, hi.user a ha]

theorem take_eq (o : Obj) (op : Op) : take lib o op = .lock o ∨ take lib o op = .tryLock o := by unfold take; split <;> simp

/-- The lock was not free. -/
theorem inv_failed {h : Hist} {t : Tid} {l : Lock} (hi : Inv lib V h) (hpc : ∀ o op log, (at_ lib V h t).pc ≠ .sec o op log) :
    Inv lib V ((t, .failed l) :: h) := by
  have hat : ∀ u, at_ lib V ((t, .failed l) :: h) u = at_ lib V h u := by
    intro u
    by_cases hut : u = t
    · subst hut
      rw [at_same]
      unfold feed
      split <;> simp_all
    · exact at_other hut _ _
  have hu : uhist lib V ((t, .failed l) :: h) = uhist lib V h := by
    simp only [uhist]
    split <;> simp_all
  constructor
  · rw [hu]; exact hi.legal
  · intro u; rw [hu, hat]; exact hi.past u
  · intro u; rw [hu, hat]; exact hi.pcU u
  · intro u; rw [hu, hat]; exact hi.pcE u
  · intro u; rw [hu, hat]; exact hi.pcS u
  · intro u; rw [hat]; exact hi.own u
  · rw [hu]; exact hi.free
  · rw [hu]; exact hi.user

theorem inv_step (hc : Clean lib V) {h : Hist} {t : Tid} {d : Done} (hi : Inv lib V h) (ha : Allowed (compile lib V) h (t, d)) :
    Inv lib V ((t, d) :: h) := by
  have hpast := hi.past t
  have hfeed := at_same (lib := lib) (V := V) t d h
  have hwant : compile lib V t (mine h t) = want lib V t (at_ lib V h t) := rfl
  cases hpc : (at_ lib V h t).pc with
  | user =>
    have hp := hi.pcU t hpc
    simp only [want, hpc] at hwant
    rw [hpast] at hwant
    cases hV : V t (upast (uhist lib V h) t) with
    | none => exfalso; rw [hV] at hwant; cases d <;> simp [Allowed, hwant] at ha
    | some q =>
      rw [hV] at hwant
      cases q with
      | read a =>
        cases d <;> simp [Allowed, hwant] at ha
        rename_i b v
        obtain ⟨rfl, hv⟩ := ha
        refine inv_access (e := .got a v) hc hi (.inl ⟨_, _, rfl, rfl⟩) (by simp [uhist, hpc]) hpc ⟨hp, hV, ?_⟩
        have hl : ULegal lib V ((t, .got a (uval (uhist lib V h) a)) :: uhist lib V h) := ⟨⟨hp, hV, rfl⟩, hi.legal⟩
        have := hc _ _ _ hl a _ (.inl rfl)
        rw [← hi.user a this]; exact hv
      | write a v =>
        cases d <;> simp [Allowed, hwant] at ha
        rename_i b v'
        obtain ⟨rfl, rfl⟩ := ha
        exact inv_access (e := .put a v) hc hi (.inr ⟨_, _, rfl, rfl⟩) (by simp [uhist, hpc]) hpc ⟨hp, hV⟩
      | call o op =>
        by_cases hd : ∃ l, d = .failed l
        · obtain ⟨l, rfl⟩ := hd
          exact inv_failed hi (by rw [hpc]; simp)
        have ha : ∃ l, d = .acquired l ∧ o = l ∧ owner h l = none := by
          have := take_eq (lib := lib) o op
          cases d <;> simp [Allowed, hwant] at ha hd ⊢ <;> grind
        obtain ⟨l, rfl, rfl, hno⟩ := ha
        have hf : at_ lib V ((t, .acquired o) :: h) t = ⟨(at_ lib V h t).past, .sec o op []⟩ := by
          rw [hfeed]; simp only [feed, hpc]; rw [hpast, hV]
        have hsec : (at_ lib V ((t, .acquired o) :: h) t).pc = .sec o op [] := by rw [hf]
        refine inv_quiet hi (by simp [uhist, hpc]) (by rw [hf]) (by rw [hsec]; simp) (by rw [hsec]; simp) ?_ ?_ (fun a _ => rfl) ?_
        · intro o' op' log' h1
          rw [hsec] at h1; cases h1
          exact ⟨.inr ⟨hp, hV⟩, trivial, fun a ha => hi.free a o ha hno⟩
        · intro u o'
          simp only [owner]
          by_cases hut : u = t
          · subst hut
            rw [hsec]
            by_cases ho : o = o'
            · subst ho; simp
            · have := hi.own u o'
              rw [hpc] at this
              simp only [ho, if_false, this]
              simp [ho]
          · rw [at_other hut]
            by_cases ho : o = o'
            · subst ho
              simp only [if_true]
              rw [← hi.own u o, hno]
              simp; exact fun h => hut h.symm
            · simp only [ho, if_false]; exact hi.own u o'
        · intro o' h1
          simp only [owner] at h1
          split at h1
          · cases h1
          · exact h1
  | enter o op =>
    have hp := hi.pcE t o op hpc
    simp only [want, hpc] at hwant
    by_cases hd : ∃ l, d = .failed l
    · obtain ⟨l, rfl⟩ := hd
      exact inv_failed hi (by rw [hpc]; simp)
    have ha : ∃ l, d = .acquired l ∧ o = l ∧ owner h l = none := by
      have := take_eq (lib := lib) o op
      cases d <;> simp [Allowed, hwant] at ha hd ⊢ <;> grind
    obtain ⟨l, rfl, rfl, hno⟩ := ha
    have hf : at_ lib V ((t, .acquired o) :: h) t = ⟨(at_ lib V h t).past, .sec o op []⟩ := by
      rw [hfeed]; simp only [feed, hpc]
    have hsec : (at_ lib V ((t, .acquired o) :: h) t).pc = .sec o op [] := by rw [hf]
    refine inv_quiet hi (by simp [uhist, hpc]) (by rw [hf]) (by rw [hsec]; simp) (by rw [hsec]; simp) ?_ ?_ (fun a _ => rfl) ?_
    · intro o' op' log' h1
      rw [hsec] at h1; cases h1
      exact ⟨.inl hp, trivial, fun a ha => hi.free a o ha hno⟩
    · intro u o'
      simp only [owner]
      by_cases hut : u = t
      · subst hut
        rw [hsec]
        by_cases ho : o = o'
        · subst ho; simp
        · have := hi.own u o'
          rw [hpc] at this
          simp only [ho, if_false, this]
          simp [ho]
      · rw [at_other hut]
        by_cases ho : o = o'
        · subst ho
          simp only [if_true]
          rw [← hi.own u o, hno]
          simp; exact fun h => hut h.symm
        · simp only [ho, if_false]; exact hi.own u o'
    · intro o' h1
      simp only [owner] at h1
      split at h1
      · cases h1
      · exact h1
  | sec o op log =>
    obtain ⟨hp, hran, hval⟩ := hi.pcS t o op log hpc
    have how : owner h o = some t := (hi.own t o).2 ⟨op, log, hpc⟩
    simp only [want, hpc] at hwant
    -- an access
    have hacc : ((∃ a v, d = .got a v) ∨ ∃ a v, d = .put a v) → Ran lib o t op (uval (uhist lib V h)) (d :: log) →
        Inv lib V ((t, d) :: h) := by
      intro hd hr
      have hf : at_ lib V ((t, d) :: h) t = ⟨(at_ lib V h t).past, .sec o op (d :: log)⟩ := by
        rw [hfeed]
        rcases hd with ⟨a, v, rfl⟩ | ⟨a, v, rfl⟩ <;> simp only [feed, hpc]
      have hsec : (at_ lib V ((t, d) :: h) t).pc = .sec o op (d :: log) := by rw [hf]
      have hown : ∀ o', owner ((t, d) :: h) o' = owner h o' := by
        rcases hd with ⟨a, v, rfl⟩ | ⟨a, v, rfl⟩ <;> intro o' <;> rfl
      refine inv_quiet hi ?_ (by rw [hf]) (by rw [hsec]; simp) (by rw [hsec]; simp) ?_ ?_ ?_ ?_
      · rcases hd with ⟨a, v, rfl⟩ | ⟨a, v, rfl⟩ <;> simp [uhist, hpc]
      · intro o' op' log' h1
        rw [hsec] at h1; cases h1
        refine ⟨hp, hr, fun a hm => ?_⟩
        rcases hd with ⟨b, v, rfl⟩ | ⟨b, v, rfl⟩
        · exact hval a hm
        · simp only [value, after, hval a hm]
      · intro u o'
        rw [hown]
        by_cases hut : u = t
        · subst hut
          rw [hi.own, hpc, hsec]; simp
        · rw [at_other hut]; exact hi.own u o'
      · intro a h1
        rcases hd with ⟨b, v, rfl⟩ | ⟨b, v, rfl⟩
        · rfl
        · have hb := lib.member o t op log b (.inr ⟨v, hr.1⟩)
          have : b ≠ a := by
            rintro rfl
            exact h1 o hb (by rw [hown]; exact how)
          simp [value, this]
      · intro o' h1; rw [hown] at h1; exact h1
    -- the end of the section
    have hend : ∀ l, d = .released l → l = o → ((∃ r, lib.code o t op log = .ret r) ∨ ∃ op', lib.code o t op log = .again op') →
        Inv lib V ((t, d) :: h) := by
      intro l hd hlo hout
      subst hd; subst hlo
      have hu : uhist lib V ((t, .released l) :: h) = (t, .sect l op log (lib.code l t op log)) :: uhist lib V h := by simp [uhist, hpc]
      have hal : UAllowed lib V (uhist lib V h) (t, .sect l op log (lib.code l t op log)) := ⟨hp, hran, rfl, hout⟩
      have hl : ULegal lib V ((t, .sect l op log (lib.code l t op log)) :: uhist lib V h) := ⟨hal, hi.legal⟩
      have hnot : ∀ o' op' log', (at_ lib V ((t, .released l) :: h) t).pc ≠ .sec o' op' log' := by
        rw [hfeed]
        rcases hout with ⟨r, hr⟩ | ⟨op', hr⟩ <;> simp [feed, hpc, hr]
      have hvo : ∀ a, lib.home a ≠ some l → uval ((t, .sect l op log (lib.code l t op log)) :: uhist lib V h) a = uval (uhist lib V h) a :=
        fun a ha => after_home ha hran
      refine ⟨by rw [hu]; exact hl, ?_, ?_, ?_, ?_, ?_, ?_, ?_⟩
      · intro u
        rw [hu]
        by_cases hut : u = t
        · subst hut
          rw [hfeed]
          rcases hout with ⟨r, hr⟩ | ⟨op', hr⟩ <;> simp [feed, hpc, hr, upast, hpast]
        · rw [at_other hut, upast_other hut]; exact hi.past u
      · intro u h1
        rw [hu]
        by_cases hut : u = t
        · subst hut
          rw [hfeed] at h1
          rcases hout with ⟨r, hr⟩ | ⟨op', hr⟩ <;> simp [feed, hpc, hr, pend] at h1 ⊢
        · rw [at_other hut] at h1; rw [pend_other hut]; exact hi.pcU u h1
      · intro u o' op' h1
        rw [hu]
        by_cases hut : u = t
        · subst hut
          rw [hfeed] at h1
          rcases hout with ⟨r, hr⟩ | ⟨op', hr⟩ <;> simp [feed, hpc, hr, pend] at h1 ⊢
          exact h1
        · rw [at_other hut] at h1; rw [pend_other hut]; exact hi.pcE u o' op' h1
      · intro u o' op' log' h1
        rw [hu]
        by_cases hut : u = t
        · subst hut; exact absurd h1 (hnot _ _ _)
        · rw [at_other hut] at h1
          rw [pend_other hut, upast_other hut]
          obtain ⟨h2, h3, h4⟩ := hi.pcS u o' op' log' h1
          have ho' : o' ≠ l := by
            rintro rfl
            have := (hi.own u o').2 ⟨op', log', h1⟩
            rw [how] at this
            exact hut (Option.some.inj this).symm
          have hvo' : ∀ a, lib.home a = some o' →
              uval (uhist lib V h) a = uval ((t, .sect l op log (lib.code l t op log)) :: uhist lib V h) a :=
            fun a ha => (hvo a (by rw [ha]; simpa using ho')).symm
          refine ⟨h2, ran_congr hvo' h3, fun a ha => ?_⟩
          rw [← after_congr (hvo' a ha)]; exact h4 a ha
      · intro u o'
        simp only [owner]
        by_cases hut : u = t
        · subst hut
          have h1 : ¬ ∃ op' log', (at_ lib V ((u, .released l) :: h) u).pc = .sec o' op' log' := by
            rintro ⟨_, _, h1⟩; exact hnot _ _ _ h1
          by_cases ho : l = o'
          · simp [ho]; exact fun x y h2 => h1 ⟨x, y, by rw [← ho] at h2; exact ho ▸ h2⟩
          · simp only [ho, if_false]
            rw [hi.own, hpc]
            simp [ho]; exact fun x y h2 => h1 ⟨x, y, h2⟩
        · rw [at_other hut]
          by_cases ho : l = o'
          · subst ho
            rw [← hi.own u l, how]; simp; exact fun h => hut h.symm
          · simp only [ho, if_false]; exact hi.own u o'
      · intro a o' h1 h2
        rw [hu]
        by_cases ho : l = o'
        · subst ho
          simp only [value, uval]; exact hval a h1
        · simp only [owner, ho, if_false] at h2
          rw [hvo a (by rw [h1]; simp; exact fun h => ho h.symm)]
          simp only [value]; exact hi.free a o' h1 h2
      · intro a h1
        rw [hu, hvo a (by rw [h1]; simp)]
        simp only [value]; exact hi.user a h1
    cases hcode : lib.code o t op log with
    | read a =>
      rw [hcode] at hwant
      cases d <;> simp [Allowed, hwant] at ha
      rename_i b v
      obtain ⟨rfl, hv⟩ := ha
      refine hacc (.inl ⟨_, _, rfl⟩) ⟨hcode, ?_, hran⟩
      rw [← hval a (lib.member o t op log a (.inl hcode))]; exact hv
    | write a v =>
      rw [hcode] at hwant
      cases d <;> simp [Allowed, hwant] at ha
      rename_i b v'
      obtain ⟨rfl, rfl⟩ := ha
      exact hacc (.inr ⟨_, _, rfl⟩) ⟨hcode, hran⟩
    | ret r =>
      rw [hcode] at hwant
      cases d <;> simp [Allowed, hwant] at ha
      exact hend _ rfl ha.1.symm (.inl ⟨r, hcode⟩)
    | again op' =>
      rw [hcode] at hwant
      cases d <;> simp [Allowed, hwant] at ha
      exact hend _ rfl ha.1.symm (.inr ⟨op', hcode⟩)

theorem inv_legal (hc : Clean lib V) {h : Hist} (hl : Legal (compile lib V) h) : Inv lib V h := by
  induction h with
  | nil => exact inv_init
  | cons e h ih => obtain ⟨t, d⟩ := e; exact inv_step hc (ih hl.2) hl.1

/-- The program with locks unlocks only what it has locked. -/
theorem unlocks (hc : Clean lib V) : Unlocks (compile lib V) := by
  intro h t l hl hq
  have hi := inv_legal hc hl
  rw [hi.own]
  change want lib V t (at_ lib V h t) = _ at hq
  have htk := fun o op => take_eq (lib := lib) o op
  unfold want at hq
  split at hq
  · split at hq <;> grind
  · grind
  · rename_i o op log hpc
    split at hq <;> simp at hq
    · subst hq; exact ⟨op, log, hpc⟩
    · subst hq; exact ⟨op, log, hpc⟩

/-- Who has a right, in the program with locks: the data of an object are with its lock or with the thread in its critical section. -/
def low (lib : Lib Op Res) (V : UProg Op Res) (right : UHist Op Res → Addr → Nat → URight) (h : Hist) (a : Addr) (i : Nat) : Right :=
  let r := match lib.home a with
    | some o => URight.obj o
    | none => right (uhist lib V h) a i
  match r with
  | .thread t => .thread t
  | .obj o =>
    match owner h o with
    | some t => .thread t
    | none => .lock o

theorem disciplined (hd : UDisciplined lib V) : Clean lib V ∧ Disciplined (compile lib V) := by
  obtain ⟨right, hR⟩ := hd
  have hc : Clean lib V := fun t e h hl a v he => by
    rcases he with he | he
    · exact ((hR t e h hl).1 a v he).1
    · exact ((hR t e h hl).2.1 a v he).1
  refine ⟨hc, low lib V right, ?_⟩
  intro t d h hl
  have hi := inv_legal hc hl.2
  have hi' := inv_legal hc hl
  have ha := hl.1
  have hwant : compile lib V t (mine h t) = want lib V t (at_ lib V h t) := rfl
  have htk := fun o op => take_eq (lib := lib) o op
  -- what the user sees
  have hcases : (∃ a v, (d = .got a v ∨ d = .put a v) ∧ (at_ lib V h t).pc = .user ∧
        ∃ e, (e = Ev.got a v ∨ e = Ev.put a v) ∧ uhist lib V ((t, d) :: h) = (t, e) :: uhist lib V h) ∨
      (∃ a v o op log, (d = .got a v ∨ d = .put a v) ∧ (at_ lib V h t).pc = .sec o op log ∧ lib.home a = some o ∧
        uhist lib V ((t, d) :: h) = uhist lib V h) ∨
      (∃ o, d = .acquired o ∧ owner h o = none ∧ uhist lib V ((t, d) :: h) = uhist lib V h) ∨
      (∃ o, d = .failed o ∧ uhist lib V ((t, d) :: h) = uhist lib V h) ∨
      (∃ o op log out, d = .released o ∧ owner h o = some t ∧ uhist lib V ((t, d) :: h) = (t, .sect o op log out) :: uhist lib V h) := by
    cases hpc : (at_ lib V h t).pc with
    | user =>
      simp only [want, hpc] at hwant
      cases d with
      | got a v => exact .inl ⟨a, v, .inl rfl, rfl, _, .inl rfl, by simp [uhist, hpc]⟩
      | put a v => exact .inl ⟨a, v, .inr rfl, rfl, _, .inr rfl, by simp [uhist, hpc]⟩
      | acquired o => exact .inr (.inr (.inl ⟨o, rfl, ha.2, by simp [uhist, hpc]⟩))
      | released o =>
        have := ha.1
        rw [hwant] at this
        split at this <;> grind
      | failed o => exact .inr (.inr (.inr (.inl ⟨o, rfl, by simp [uhist, hpc]⟩)))
    | enter o op =>
      simp only [want, hpc] at hwant
      cases d with
      | acquired o => exact .inr (.inr (.inl ⟨o, rfl, ha.2, by simp [uhist, hpc]⟩))
      | got a v => simp [Allowed, hwant] at ha; grind
      | put a v => simp [Allowed, hwant] at ha; grind
      | released o => simp [Allowed, hwant] at ha; grind
      | failed o => exact .inr (.inr (.inr (.inl ⟨o, rfl, by simp [uhist, hpc]⟩)))
    | sec o op log =>
      have how : owner h o = some t := (hi.own t o).2 ⟨op, log, hpc⟩
      simp only [want, hpc] at hwant
      cases d with
      | acquired o => exact .inr (.inr (.inl ⟨o, rfl, ha.2, by simp [uhist, hpc]⟩))
      | got a v =>
        have h1 := ha.1
        rw [hwant] at h1
        refine .inr (.inl ⟨a, v, o, op, log, .inl rfl, rfl, ?_, by simp [uhist, hpc]⟩)
        split at h1 <;> simp at h1
        rename_i hcode
        subst h1
        exact lib.member o t op log _ (.inl hcode)
      | put a v =>
        have h1 : compile lib V t (mine h t) = _ := ha
        rw [hwant] at h1
        refine .inr (.inl ⟨a, v, o, op, log, .inr rfl, rfl, ?_, by simp [uhist, hpc]⟩)
        split at h1 <;> simp at h1
        rename_i hcode
        obtain ⟨rfl, rfl⟩ := h1
        exact lib.member o t op log _ (.inr ⟨_, hcode⟩)
      | released l =>
        have h1 := ha.1
        rw [hwant] at h1
        refine .inr (.inr (.inr (.inr ⟨l, op, log, lib.code o t op log, rfl, ha.2, ?_⟩)))
        split at h1 <;> simp at h1 <;> subst h1 <;> simp [uhist, hpc]
      | failed l =>
        have h1 : compile lib V t (mine h t) = _ := ha
        rw [hwant] at h1
        split at h1 <;> simp at h1
  rcases hcases with ⟨a, v, hd, hpc, e, he, hu⟩ | ⟨a, v, o, op, log, hd, hpc, hh, hu⟩ | ⟨o, rfl, hno, hu⟩ | ⟨o, rfl, hu⟩ | ⟨o, op, log, out, rfl, how, hu⟩
  · -- the user's code
    have hLu := hi'.legal
    rw [hu] at hLu
    have hRu := hR _ _ _ hLu
    have hown : ∀ o, owner ((t, d) :: h) o = owner h o := by rcases hd with rfl | rfl <;> intro o <;> rfl
    have hsame : ∀ b i, lib.home b = none → right ((t, e) :: uhist lib V h) b i = right (uhist lib V h) b i := by
      intro b i hb
      rcases hRu.2.2 b i hb with h1 | ⟨o, op, log, out, h1, _⟩
      · exact h1
      · rcases he with rfl | rfl <;> cases h1
    have he' : (d = .got a v → e = .got a v) ∧ (d = .put a v → e = .put a v) := by
      cases hpc' : (at_ lib V h t).pc <;> rw [hpc] at hpc' <;> cases hpc'
      refine ⟨fun hd => ?_, fun hd => ?_⟩ <;> subst hd <;> simp only [uhist, hpc, List.cons.injEq, Prod.mk.injEq] at hu <;> exact hu.1.2.symm
    refine ⟨?_, ?_, ?_⟩
    · intro b w hd'
      have hb : b = a ∧ w = v := by rcases hd with rfl | rfl <;> cases hd' <;> exact ⟨rfl, rfl⟩
      obtain ⟨rfl, rfl⟩ := hb
      obtain ⟨h1, i, h2⟩ := hRu.1 b w (he'.1 hd')
      exact ⟨i, by simp only [low, h1, h2]⟩
    · intro b w hd' i
      have hb : b = a ∧ w = v := by rcases hd with rfl | rfl <;> cases hd' <;> exact ⟨rfl, rfl⟩
      obtain ⟨rfl, rfl⟩ := hb
      obtain ⟨h1, h2⟩ := hRu.2.1 b w (he'.2 hd')
      simp only [low, h1, h2]
    · intro b i
      refine .inl ?_
      unfold low
      cases hb : lib.home b with
      | none => simp only [hu, hsame b i hb, hown]
      | some o => simp only [hown]
  · -- in a critical section
    have how : owner h o = some t := (hi.own t o).2 ⟨op, log, hpc⟩
    have hown : ∀ o, owner ((t, d) :: h) o = owner h o := by rcases hd with rfl | rfl <;> intro o <;> rfl
    have hall : ∀ b w i, d = .got b w ∨ d = .put b w → low lib V right h b i = .thread t := by
      intro b w i hd'
      have hb : b = a := by rcases hd with rfl | rfl <;> rcases hd' with h1 | h1 <;> cases h1 <;> rfl
      subst hb
      simp only [low, hh, how]
    refine ⟨fun b w hd' => ⟨0, hall b w 0 (.inl hd')⟩, fun b w hd' i => hall b w i (.inr hd'), ?_⟩
    · intro b i
      refine .inl ?_
      unfold low
      simp only [hu, hown]
  · -- the lock is taken
    refine ⟨by intro a v h1; simp at h1, by intro a v h1; simp at h1, ?_⟩
    intro b i
    unfold low
    rw [hu]
    generalize (match lib.home b with | some o => URight.obj o | none => right (uhist lib V h) b i) = r
    cases r with
    | thread u => exact .inl rfl
    | obj o' =>
      by_cases ho : o = o'
      · subst ho
        exact .inr (.inl ⟨o, rfl, by simp only [hno], by simp [owner]⟩)
      · exact .inl (by simp [owner, ho])
  · -- the lock was not free
    refine ⟨by intro a v h1; simp at h1, by intro a v h1; simp at h1, fun b i => .inl ?_⟩
    unfold low
    simp only [hu, owner]
  · -- the lock is released
    have hLu := hi'.legal
    rw [hu] at hLu
    have hRu := hR _ _ _ hLu
    refine ⟨by intro a v h1; simp at h1, by intro a v h1; simp at h1, ?_⟩
    intro b i
    unfold low
    rw [hu]
    -- the right of the user's point of view moves, or stays
    have hmv : (match lib.home b with | some o => URight.obj o | none => right ((t, .sect o op log out) :: uhist lib V h) b i) =
          (match lib.home b with | some o => URight.obj o | none => right (uhist lib V h) b i) ∨
        ((match lib.home b with | some o => URight.obj o | none => right (uhist lib V h) b i) = .obj o ∧
          (match lib.home b with | some o => URight.obj o | none => right ((t, .sect o op log out) :: uhist lib V h) b i) = .thread t) ∨
        ((match lib.home b with | some o => URight.obj o | none => right (uhist lib V h) b i) = .thread t ∧
          (match lib.home b with | some o => URight.obj o | none => right ((t, .sect o op log out) :: uhist lib V h) b i) = .obj o) := by
      cases hb : lib.home b with
      | some o => exact .inl rfl
      | none =>
        rcases hRu.2.2 b i hb with h1 | ⟨o', op', log', out', h1, h2⟩
        · exact .inl h1
        · cases h1; exact .inr h2
    generalize (match lib.home b with | some o => URight.obj o | none => right (uhist lib V h) b i) = r at hmv
    generalize (match lib.home b with | some o => URight.obj o | none => right ((t, .sect o op log out) :: uhist lib V h) b i) = r' at hmv
    rcases hmv with rfl | ⟨rfl, rfl⟩ | ⟨rfl, rfl⟩
    · cases r' with
      | thread u => exact .inl rfl
      | obj o' =>
        by_cases ho : o = o'
        · subst ho
          exact .inr (.inr ⟨o, rfl, by simp only [how], by simp [owner]⟩)
        · exact .inl (by simp [owner, ho])
    · exact .inl (by simp only [how])
    · exact .inr (.inr ⟨o, rfl, rfl, by simp [owner]⟩)

end Verif.Monitor
