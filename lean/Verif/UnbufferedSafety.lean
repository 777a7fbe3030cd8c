import Verif.UnbufferedInv

/-!
# Unbuffered channel: who offered and who took what
-/

namespace Verif.Unbuf

variable {V : Type}

/-- Inside `pushLocked`/`closeCons`: holding `splk_producers_`. -/
def Pc.holdsProd : Pc V → Bool
  | .pushLocked _ _ | .closeCons => true
  | _ => false

def Pc.holdsCons : Pc V → Bool
  | .popLocked _ => true
  | _ => false

/-- The slot a popping fiber has taken and not yet finished with. -/
def Pc.held : Pc V → Option Ref
  | .popNotify _ r | .popRead _ r | .popWake _ r _ => some r
  | _ => none

/-- A published, not yet resumed producer: the epoch of the waker in its slot. -/
def Pc.offering : Pc V → Option Nat
  | .pushNotify _ _ ep | .slotWait _ _ ep => some ep
  | _ => none

/-- Inside a push that has not published its slot. -/
def Pc.trying : Pc V → Bool
  | .pushStart _ _ | .pushTry _ _ | .pushLock _ _ | .pushLocked _ _ => true
  | .waitPush _ _ _ | .unlinkPush _ _ _ => true
  | _ => false

/-- Inside a pop that has not taken anything. -/
def Pc.seeking : Pc V → Bool
  | .popStart _ | .popLock _ | .popLocked _ => true
  | .waitPop _ _ | .unlinkPop _ _ => true
  | _ => false

/-- The value of a published slot. -/
def Pc.published : Pc V → Option V
  | .pushNotify v _ _ | .slotWait v _ _ | .slotAfter v _ _ | .slotLate v _ _ => some v
  | _ => none

/-- The call a fiber is in. -/
def opOf : Pc V → Option (Op V)
  | .idle => none
  | .pushStart v dl | .pushTry v dl | .pushNotify v dl _ | .slotWait v dl _ | .slotAfter v dl _ | .slotLate v dl _
  | .pushLock v dl | .pushLocked v dl => some (.push v dl)
  | .waitPush v dl _ | .unlinkPush v dl _ => some (.push v dl)
  | .popStart p | .popNotify p _ | .popRead p _ | .popWake p _ _ | .popLock p | .popLocked p | .waitPop p _
  | .unlinkPop p _ => some p.op
  | .closeStart | .closeLoad | .closeWake _ | .closeProd | .closeCons => some .close
  | .queryClosed => some .isClosed

/-- Past the exchange in `close`. -/
def Pc.closing : Pc V → Bool
  | .closeLoad | .closeWake _ | .closeProd | .closeCons => true
  | _ => false

/-- Unfold one step of the machine into its cases. -/
macro "ucases " s:term ", " f:term ", " hs:ident ", " hp:ident : tactic =>
  `(tactic| (cases $hp:ident : ($s).pc $f <;> simp only [run, State.resume, State.unlink, $hp:ident] at $hs:ident <;>
      (repeat' split at $hs:ident) <;>
      simp only [State.ret, State.goto, State.crash, State.block, enqueue, createWaker,
        Option.some.injEq, Prod.mk.injEq, reduceCtorEq] at $hs:ident <;>
      (have e1 := ($hs).1; have e2 := ($hs).2; clear $hs; subst e1; subst e2)))

structure PI (s : State V) : Prop where
  lkp : ∀ f, s.lk .prod = some f ↔ (s.pc f).holdsProd = true
  lkc : ∀ f, s.lk .cons = some f ↔ (s.pc f).holdsCons = true
  cl  : ∀ f, (s.pc f).closing = true → s.closed = true

theorem startOf_facts (op : Op V) : (startOf op).holdsProd = false ∧
    (startOf op).holdsCons = false ∧ (startOf op).closing = false ∧ (startOf op).held = none ∧
    (startOf op).offering = none ∧ (startOf op).published = none ∧ opOf (startOf op) = some op := by
  cases op <;> simp [startOf, Pc.holdsProd, Pc.holdsCons, Pc.closing, Pc.held, Pc.offering, Pc.published,
    opOf, PopOp.op]

theorem pi_run {s s' : State V} {o : List (Obs V)} {f : Fid} {b : Bool} (h : PI s) (hs : run s f b = some (s', o)) : PI s' := by
  obtain ⟨h1, h2, h4⟩ := h
  have := h1 f; have := h2 f; have := h4 f
  ucases s, f, hs, hp
  all_goals
    refine ⟨?_, ?_, ?_⟩ <;> intro g <;> have := h1 g <;> have := h2 g <;> have := h4 g <;>
    (try simp only [upd_apply, setLk]) <;>
    grind [Pc.holdsProd, Pc.holdsCons, Pc.closing]

theorem pi_step {s s' : State V} {o : List (Obs V)} {e : Event V} (h : PI s) (hs : step s e = some (s', o)) : PI s' := by
  simp only [step] at hs
  split at hs
  · cases hs
  cases e with
  | run f => exact pi_run h hs
  | fail f => exact pi_run h hs
  | call f op =>
    simp only [stepOk] at hs
    split at hs <;> simp only [Option.some.injEq, Prod.mk.injEq, reduceCtorEq] at hs
    rename_i hp
    obtain ⟨rfl, rfl⟩ := hs
    obtain ⟨h1, h2, h4⟩ := h
    have hst := startOf_facts op
    refine ⟨?_, ?_, ?_⟩ <;> intro g <;> have := h1 g <;> have := h2 g <;> have := h4 g <;>
      simp only [upd_apply] <;> grind [Pc.holdsProd, Pc.holdsCons, Pc.closing]
  | timer f =>
    simp only [stepOk] at hs
    split at hs
    case h_2 => cases hs
    split at hs <;> simp only [Option.some.injEq, Prod.mk.injEq, reduceCtorEq] at hs
    obtain ⟨rfl, rfl⟩ := hs
    exact ⟨h.1, h.2, h.3⟩
  | tick n =>
    simp only [stepOk, Option.some.injEq, Prod.mk.injEq] at hs
    obtain ⟨rfl, rfl⟩ := hs
    exact ⟨h.1, h.2, h.3⟩
  | elsewhere f n =>
    simp only [stepOk] at hs
    split at hs <;> simp only [Option.some.injEq, Prod.mk.injEq, reduceCtorEq] at hs
    obtain ⟨rfl, rfl⟩ := hs
    exact ⟨h.1, h.2, h.3⟩

theorem reach_pi {s : State V} {tr : List (Obs V)} (h : Reach step init s tr) : PI s :=
  Reach.inv (fun s _ => PI s)
    ⟨by simp [init, Pc.holdsProd], by simp [init, Pc.holdsCons], by simp [init, Pc.closing]⟩
    (fun _ _ _ _ _ _ hi hs => pi_step hi hs) h

end Verif.Unbuf
