import Verif.MonitorSec

/-!
# Handing data over through objects

Operations of an object may hand data over: one that returns may leave some data of the caller with the object, or give data to the caller.
-/

namespace Verif.Monitor

open Verif.Rtm (Tid Lock Addr Req Done Hist Prog mine owner value Legal Allowed holding)
open Verif.WeakDrf

variable {Op Res : Type}

/-- How operations hand data over. -/
structure Ports (Op Res : Type) where
  /-- what an operation would hand over to the object -/
  offers : Op → Option Addr
  /-- what the caller has handed over to the object when the operation returns -/
  gives : Op → Res → Option Addr
  /-- what the caller has got from the object when the operation returns -/
  takes : Op → Res → Option Addr
  offered : ∀ op r a, gives op r = some a → offers op = some a

/-- `first` says to whom data belong in the beginning. A thread with this past has the data: they belonged to it in the beginning, or it got them from an object,
and it has not handed them over since. -/
def has (pt : Ports Op Res) (first : Addr → Tid) (t : Tid) : List (UDone Op Res) → Addr → Prop
  | [], a => first a = t
  | .did _ op r :: p, a => pt.gives op r ≠ some a ∧ (pt.takes op r = some a ∨ has pt first t p a)
  | _ :: p, a => has pt first t p a

/-- A program that accesses data only while it has them, and hands over only data it has. Every thread can tell from its own past. -/
def Careful (lib : Lib Op Res) (V : UProg Op Res) (pt : Ports Op Res) (first : Addr → Tid) : Prop :=
  ∀ h t, ULegal lib V h →
    (∀ a, (V t (upast h t) = some (.read a) ∨ ∃ v, V t (upast h t) = some (.write a v)) → lib.home a = none ∧ has pt first t (upast h t) a) ∧
      ∀ o op a, V t (upast h t) = some (.call o op) → pt.offers op = some a → has pt first t (upast h t) a

/-- Where data are after a history: with a thread or in an object. -/
def place (pt : Ports Op Res) (first : Addr → Tid) : UHist Op Res → Addr → URight
  | [], a => .thread (first a)
  | (t, .sect o op _ (.ret r)) :: h, a =>
    if pt.gives op r = some a then .obj o else if pt.takes op r = some a then .thread t else place pt first h a
  | _ :: h, a => place pt first h a

variable {lib : Lib Op Res} {V : UProg Op Res} {pt : Ports Op Res} {first : Addr → Tid}

/-- A waiting operation still offers what it offered when it was called. -/
theorem pend_call (hrep : ∀ o t op log op', lib.code o t op log = .again op' → pt.offers op' = pt.offers op) :
    ∀ {h : UHist Op Res}, ULegal lib V h → ∀ t o op, pend h t = some (o, op) →
      ∃ op0, V t (upast h t) = some (.call o op0) ∧ pt.offers op = pt.offers op0
  | [], _, t, o, op, hp => by simp [pend] at hp
  | (u, e) :: h, hl, t, o, op, hp => by
    by_cases hu : t = u
    · subst hu
      cases e with
      | got a v => simp [pend] at hp
      | put a v => simp [pend] at hp
      | sect o' op' log out =>
        obtain ⟨h1, h2, h3, h4⟩ := hl.1
        cases out with
        | again op'' =>
          simp only [pend, if_true, Option.some.injEq, Prod.mk.injEq] at hp
          obtain ⟨rfl, rfl⟩ := hp
          have h5 := hrep _ _ _ _ _ h3.symm
          have h6 : upast ((t, Ev.sect o' op' log (.again op'')) :: h) t = upast h t := by simp [upast]
          rw [h6]
          rcases h1 with h1 | ⟨_, h1⟩
          · obtain ⟨op0, h7, h8⟩ := pend_call hrep hl.2 t o' op' h1
            exact ⟨op0, h7, by rw [h5, h8]⟩
          · exact ⟨op', h1, h5⟩
        | ret r => simp [pend] at hp
        | read a => simp [pend] at hp
        | write a v => simp [pend] at hp
    · rw [pend_other hu] at hp
      rw [upast_other hu]
      exact pend_call hrep hl.2 t o op hp

/-- If an object gives away only what is in it, then careful programs share data properly. `K` is what one has to know about the objects. -/
theorem handoff (hc : Careful lib V pt first) (hrep : ∀ o t op log op', lib.code o t op log = .again op' → pt.offers op' = pt.offers op)
    (K : UHist Op Res → Prop) (K0 : K [])
    (Kstep : ∀ t e h, ULegal lib V ((t, e) :: h) → K h →
      (∀ o op log r a, e = .sect o op log (.ret r) → pt.gives op r = some a → place pt first h a = .thread t) → K ((t, e) :: h))
    (Ksafe : ∀ t o op log r a h, ULegal lib V ((t, .sect o op log (.ret r)) :: h) → K h → pt.takes op r = some a → place pt first h a = .obj o) :
    UDisciplined lib V ∧ ∀ h, ULegal lib V h → K h ∧ ∀ t a, has pt first t (upast h t) a ↔ place pt first h a = .thread t := by
  have hgive : ∀ t o op log r a h, ULegal lib V ((t, .sect o op log (.ret r)) :: h) → pt.gives op r = some a → has pt first t (upast h t) a := by
    intro t o op log r a h hl hg
    have ho := pt.offered _ _ _ hg
    rcases hl.1.1 with h1 | ⟨_, h1⟩
    · obtain ⟨op0, h2, h3⟩ := pend_call hrep hl.2 t o op h1
      exact (hc h t hl.2).2 o op0 a h2 (by rw [← h3]; exact ho)
    · exact (hc h t hl.2).2 o op a h1 ho
  have main : ∀ h, ULegal lib V h → K h ∧ ∀ t a, has pt first t (upast h t) a ↔ place pt first h a = .thread t := by
    intro h
    induction h with
    | nil => intro _; exact ⟨K0, fun t a => by simp [upast, has, place]⟩
    | cons e h ih =>
      obtain ⟨t, e⟩ := e
      intro hl
      obtain ⟨hK, hI⟩ := ih hl.2
      refine ⟨Kstep t e h hl hK ?_, ?_⟩
      · intro o op log r a he hg
        subst he
        exact (hI t a).1 (hgive t o op log r a h hl hg)
      · intro u a
        cases e with
        | got b v =>
          by_cases hu : u = t
          · subst hu; simp only [upast, if_true, has, place]; exact hI u a
          · rw [upast_other hu]; exact hI u a
        | put b v =>
          by_cases hu : u = t
          · subst hu; simp only [upast, if_true, has, place]; exact hI u a
          · rw [upast_other hu]; exact hI u a
        | sect o op log out =>
          cases out with
          | read b => rcases hl.1.2.2.2 with ⟨r, h1⟩ | ⟨r, h1⟩ <;> cases h1
          | write b v => rcases hl.1.2.2.2 with ⟨r, h1⟩ | ⟨r, h1⟩ <;> cases h1
          | again op' =>
            by_cases hu : u = t
            · subst hu; simp only [upast, if_true, place]; exact hI u a
            · rw [upast_other hu]; exact hI u a
          | ret r =>
            have h1 := hgive t o op log r a h hl
            have h2 := Ksafe t o op log r a h hl hK
            have h3 := hI t a
            have h4 := hI u a
            by_cases hu : u = t
            · subst hu
              simp only [upast, if_true, has, place]
              split
              · simp [*]
              · split
                · simp [*]
                · simp [*]
            · rw [upast_other hu]
              simp only [place]
              have hu' : ¬ t = u := fun h => hu h.symm
              split
              · rename_i hg
                have h5 := h3.1 (h1 hg)
                rw [h4, h5]
                simp [hu']
              · split
                · rename_i hk
                  rw [h4, h2 hk]
                  simp [hu']
                · exact h4
  refine ⟨.of_one (place pt first) ?_, main⟩
  intro t e h hl
  obtain ⟨hK, hI⟩ := main h hl.2
  refine ⟨?_, ?_⟩
  · intro a v he
    have hcc := (hc h t hl.2).1 a
    have : lib.home a = none ∧ has pt first t (upast h t) a := by
      rcases he with rfl | rfl
      · exact hcc (.inl hl.1.2.1)
      · exact hcc (.inr ⟨v, hl.1.2⟩)
    exact ⟨this.1, (hI t a).1 this.2⟩
  · intro a _
    cases e with
    | got b v => exact .inl rfl
    | put b v => exact .inl rfl
    | sect o op log out =>
      cases out with
      | read b => exact .inl rfl
      | write b v => exact .inl rfl
      | again op' => exact .inl rfl
      | ret r =>
        simp only [UMoves, place]
        split
        · rename_i hg
          exact .inr ⟨o, op, log, _, rfl, .inr ⟨(hI t a).1 (hgive t o op log r a h hl hg), rfl⟩⟩
        · split
          · rename_i hk
            exact .inr ⟨o, op, log, _, rfl, .inl ⟨Ksafe t o op log r a h hl hK hk, rfl⟩⟩
          · exact .inl rfl

end Verif.Monitor
