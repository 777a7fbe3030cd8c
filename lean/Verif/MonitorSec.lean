import Verif.MonitorInv

/-!
# Critical sections as programs

A way to write down the code of critical sections, and what a whole section does to the members of its object.
-/

namespace Verif.Monitor

open Verif.Rtm (Tid Lock Addr Req Done Hist Prog mine owner value Legal Allowed holding)
open Verif.WeakDrf

variable {Op Res : Type}

/-- The code of a critical section. -/
inductive Sec (Op Res : Type)
  | read (a : Addr) (k : Nat → Sec Op Res)
  | write (a : Addr) (v : Nat) (k : Sec Op Res)
  | ret (r : Res)
  | again (op : Op)

/-- The first thing a section does. -/
def Sec.head : Sec Op Res → Act Op Res
  | .read a _ => .read a
  | .write a v _ => .write a v
  | .ret r => .ret r
  | .again op => .again op

/-- The rest of a section after an access. -/
def Sec.next : Done → Sec Op Res → Sec Op Res
  | .got _ v, .read _ k => k v
  | .put _ _, .write _ _ k => k
  | _, c => c

/-- The rest of a section after some accesses (latest first). -/
def Sec.rest (c : Sec Op Res) : List Done → Sec Op Res
  | [] => c
  | d :: l => (c.rest l).next d

/-- A section accesses members of `o` only. -/
def Sec.Within (home : Addr → Option Obj) (o : Obj) : Sec Op Res → Prop
  | .read a k => home a = some o ∧ ∀ v, (k v).Within home o
  | .write a _ k => home a = some o ∧ k.Within home o
  | .ret _ => True
  | .again _ => True

theorem Sec.within_rest {home : Addr → Option Obj} {o : Obj} {c : Sec Op Res} (h : c.Within home o) : ∀ l : List Done, (c.rest l).Within home o
  | [] => h
  | d :: l => by
    have ih := Sec.within_rest h l
    simp only [Sec.rest]
    generalize c.rest l = c' at ih
    cases c' <;> cases d <;> simp only [Sec.next] <;> first | exact ih | exact ih.2 | exact ih.2 _

/-- The objects whose critical sections have this code. -/
def Lib.of (sec : Obj → Tid → Op → Sec Op Res) (home : Addr → Option Obj) (tries : Op → Bool) (h : ∀ o t op, (sec o t op).Within home o) : Lib Op Res where
  code o t op log := ((sec o t op).rest log).head
  home := home
  tries := tries
  member o t op log a ha := by
    have hw := Sec.within_rest (h o t op) log
    generalize (sec o t op).rest log = c at ha hw
    cases c <;> simp [Sec.head] at ha
    · subst ha; exact hw.1
    · obtain ⟨rfl, _⟩ := ha; exact hw.1

/-- If a section ends with waiting, what follows satisfies `P`. -/
def Sec.Agains (P : Op → Prop) : Sec Op Res → Prop
  | .read _ k => ∀ v, (k v).Agains P
  | .write _ _ k => k.Agains P
  | .ret _ => True
  | .again op => P op

theorem Sec.agains_rest {P : Op → Prop} {c : Sec Op Res} (h : c.Agains P) : ∀ l : List Done, (c.rest l).Agains P
  | [] => h
  | d :: l => by
    have ih := Sec.agains_rest h l
    simp only [Sec.rest]
    generalize c.rest l = c' at ih
    cases c' <;> cases d <;> simp only [Sec.next] <;> first | exact ih | exact ih _

theorem Sec.agains_head {P : Op → Prop} {c : Sec Op Res} (h : c.Agains P) (l : List Done) {op : Op} (hh : (c.rest l).head = .again op) : P op := by
  have ih := Sec.agains_rest h l
  generalize c.rest l = c' at ih hh
  cases c' <;> simp [Sec.head] at hh
  subst hh; exact ih

/-- What a whole section does with the values of the variables, and how it ends. -/
def Sec.eval (mem : Addr → Nat) : Sec Op Res → (Addr → Nat) × Act Op Res
  | .read a k => (k (mem a)).eval mem
  | .write a v k => k.eval (fun b => if a = b then v else mem b)
  | .ret r => (mem, .ret r)
  | .again op => (mem, .again op)

variable {sec : Obj → Tid → Op → Sec Op Res} {home : Addr → Option Obj} {tries : Op → Bool} {hw : ∀ o t op, (sec o t op).Within home o}

theorem ran_rest {o : Obj} {t : Tid} {op : Op} {mem : Addr → Nat} :
    ∀ {log : List Done}, Ran (Lib.of sec home tries hw) o t op mem log → ((sec o t op).rest log).eval (after mem log) = (sec o t op).eval mem
  | [], _ => rfl
  | .got a v :: l, hr => by
    have ih := ran_rest hr.2.2
    have h1 : ((sec o t op).rest l).head = .read a := hr.1
    simp only [Sec.rest]
    change (Sec.next _ _).eval (after mem l) = _
    rw [← ih, ← hr.2.1]
    generalize (sec o t op).rest l = c at h1
    cases c <;> simp [Sec.head] at h1
    subst h1
    rfl
  | .put a v :: l, hr => by
    have ih := ran_rest hr.2
    have h1 : ((sec o t op).rest l).head = .write a v := hr.1
    simp only [Sec.rest]
    rw [← ih]
    generalize (sec o t op).rest l = c at h1
    cases c <;> simp [Sec.head] at h1
    obtain ⟨rfl, rfl⟩ := h1
    rfl
  | .acquired _ :: _, hr => hr.elim
  | .released _ :: _, hr => hr.elim
  | .failed _ :: _, hr => hr.elim

/-- A complete critical section is what its code says. -/
theorem ran_eval {o : Obj} {t : Tid} {op : Op} {mem : Addr → Nat} {log : List Done} {out : Act Op Res}
    (hr : Ran (Lib.of sec home tries hw) o t op mem log) (ho : out = (Lib.of sec home tries hw).code o t op log)
    (hout : (∃ r, out = .ret r) ∨ ∃ op', out = .again op') : (sec o t op).eval mem = (after mem log, out) := by
  have h1 := ran_rest hr
  rw [← h1]
  have h2 : out = ((sec o t op).rest log).head := ho
  generalize (sec o t op).rest log = c at h2
  subst h2
  cases c <;> simp [Sec.head] at hout ⊢ <;> rfl

/-- A step of a program whose critical sections are single steps. -/
theorem sect_eval {V : UProg Op Res} {t : Tid} {o : Obj} {op : Op} {log : List Done} {out : Act Op Res} {h : UHist Op Res}
    (ha : UAllowed (Lib.of sec home tries hw) V h (t, .sect o op log out)) :
    (pend h t = some (o, op) ∨ (pend h t = none ∧ V t (upast h t) = some (.call o op))) ∧
      (sec o t op).eval (uval h) = (uval ((t, .sect o op log out) :: h), out) := by
  obtain ⟨h1, h2, h3, h4⟩ := ha
  exact ⟨h1, ran_eval h2 h3 h4⟩

end Verif.Monitor
