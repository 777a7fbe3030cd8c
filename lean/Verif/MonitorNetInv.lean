import Verif.MonitorNet

/-!
# Networks of channels: what operations return
-/

namespace Verif.Monitor.Chan

open Verif.Rtm (Tid Lock Addr Req Done Hist Prog mine owner value Legal Allowed holding)
open Verif.WeakDrf Verif.Monitor

variable {C : Chans}

theorem ring_full {n c p : Nat} {slot : Nat → Nat} {xs : List Nat} (h : Ring n c p slot xs) : c = (p + 1) % n ↔ ¬ xs.length + 1 < n := by
  obtain ⟨h1, h2, rfl, h4⟩ := h
  rw [Nat.mod_add_mod, Nat.add_assoc]
  constructor
  · intro he hn
    have h5 : (c + (xs.length + 1)) % n = if c + (xs.length + 1) < n then c + (xs.length + 1) else c + (xs.length + 1) - n := by
      split
      · exact Nat.mod_eq_of_lt ‹_›
      · rw [Nat.mod_eq_sub_mod (by omega), Nat.mod_eq_of_lt (by omega)]
    rw [h5] at he
    split at he <;> omega
  · intro hn
    have : xs.length + 1 = n := by omega
    rw [this, Nat.add_mod_right, Nat.mod_eq_of_lt h2]

/-- The critical sections of a network, with the elements `xs` in the channel. -/
theorem sec_answer {o : Obj} {op : Op} {m m' : Addr → Nat} {out : Act Op Res} {xs : List Nat} (he : (sec C o op).eval m = (m', out))
    (hc : Content C m o xs) (hop : op = .pop ∨ op = .close ∨ ∃ v, op = .push v) :
    out = answer (C.cap o) xs 0 (m (closedAt C o) != 0) op ∧ (m' (closedAt C o) != 0) = (m (closedAt C o) != 0 || op == .close) := by
  rcases hop with rfl | rfl | ⟨v, rfl⟩
  · simp only [sec, popping, Sec.eval] at he
    split at he
    · rename_i hn
      have hx := (ring_empty hc).1 hn
      subst hx
      simp only [Sec.eval] at he
      split at he
      · simp only [Sec.eval, Prod.mk.injEq] at he
        obtain ⟨rfl, rfl⟩ := he
        simp_all [answer]
      · simp only [wait, Sec.eval, Prod.mk.injEq] at he
        obtain ⟨rfl, rfl⟩ := he
        simp_all [answer, closedAt, consumersAt, member_inj]
    · rename_i hne
      split at he
      · have := hc.2.1
        omega
      · cases xs with
        | nil => exact absurd ((ring_empty hc).2 rfl) hne
        | cons x xs =>
          obtain ⟨hg, hg'⟩ := ring_get hc
          simp only [Sec.eval] at he
          obtain ⟨n, hn⟩ := eval_notifyOne (producersAt C o) (.ret (.value (m (slotAt C o (m (cidxAt C o))))))
            (fun b => if cidxAt C o = b then (m (cidxAt C o) + 1) % C.cap o else m b)
          rw [hn] at he
          simp only [Sec.eval, Prod.mk.injEq] at he
          obtain ⟨rfl, rfl⟩ := he
          simp_all [answer, closedAt, producersAt, cidxAt, member_inj]
  · simp only [sec, Sec.eval] at he
    split at he <;> simp only [notifyAll, Sec.eval, Prod.mk.injEq] at he <;> obtain ⟨rfl, rfl⟩ := he
    · simp_all [answer]
    · simp_all [answer, closedAt, consumersAt, producersAt, member_inj]
  · simp only [sec, pushing, Sec.eval] at he
    split at he
    · simp only [Sec.eval, Prod.mk.injEq] at he
      obtain ⟨rfl, rfl⟩ := he
      simp_all [answer]
    · rename_i hcl
      simp only [Sec.eval] at he
      split at he
      · rename_i hf
        have hx := (ring_full hc).1 hf
        simp only [wait, Sec.eval, Prod.mk.injEq] at he
        obtain ⟨rfl, rfl⟩ := he
        simp_all [answer, closedAt, producersAt, member_inj]
      · rename_i hf
        have hx := mt (ring_full hc).2 hf
        split at he
        · have := hc.2.2.1
          have h2 := Nat.mod_lt (m (cidxAt C o) + xs.length) (show C.cap o > 0 by have := C.two o; omega)
          omega
        · simp only [Sec.eval] at he
          obtain ⟨n, hn⟩ := eval_notifyOne (consumersAt C o) (.ret .success)
            (fun b => if pidxAt C o = b then (m (pidxAt C o) + 1) % C.cap o else if slotAt C o (m (pidxAt C o)) = b then v else m b)
          rw [hn] at he
          simp only [Sec.eval, Prod.mk.injEq] at he
          obtain ⟨rfl, rfl⟩ := he
          have h5 : slotAt C o (m (pidxAt C o)) ≠ closedAt C o := by simp [slotAt, closedAt, member_inj]
          simp_all [answer, closedAt, consumersAt, pidxAt, member_inj]

/-- An operation of a network that has waited goes on as the same operation. -/
theorem again_same {o : Obj} {t : Tid} {op : Op} {log : List Done} {op' : Op} (h : (lib C).code o t op log = .again op')
    (hop : op = .pop ∨ op = .close ∨ ∃ v, op = .push v) : op' = op := by
  suffices H : (sec C o op).Agains fun op' => op' = op from Sec.agains_head H log h
  have hno : ∀ P q k, Sec.Agains P k → Sec.Agains P (notifyOne q k) := by
    intro P q k hk v
    dsimp only
    split
    · exact hk
    · exact hk
  rcases hop with rfl | rfl | ⟨v, rfl⟩
  · intro c p
    dsimp only
    split
    · intro b
      dsimp only
      split
      · trivial
      · exact fun _ => rfl
    · split
      · trivial
      · intro v
        exact hno _ _ _ trivial
  · intro b
    dsimp only
    split <;> trivial
  · intro b
    dsimp only
    split
    · trivial
    · intro c p
      dsimp only
      split
      · exact fun _ => rfl
      · split
        · trivial
        · exact hno _ _ _ trivial

variable {V : UProg Op Res} {prod cons : Obj → Tid}

/-- A thread that waits in an operation has called this operation. -/
theorem pend_same (hn : Network C V prod cons) : ∀ {h : UHist Op Res}, ULegal (lib C) V h → ∀ t o op, pend h t = some (o, op) → V t (upast h t) = some (.call o op)
  | [], _, t, o, op, hp => by simp [pend] at hp
  | (u, e) :: h, hl, t, o, op, hp => by
    by_cases hu : t = u
    · subst hu
      cases e with
      | got a v => simp [pend] at hp
      | put a v => simp [pend] at hp
      | sect o' op' log out =>
        obtain ⟨h1, h2, h3, h4⟩ := hl.1
        cases out with
        | again op'' =>
          simp only [pend, if_true, Option.some.injEq, Prod.mk.injEq] at hp
          obtain ⟨rfl, rfl⟩ := hp
          have h6 : upast ((t, Ev.sect o' op' log (.again op'')) :: h) t = upast h t := by simp [upast]
          rw [h6]
          have h7 : V t (upast h t) = some (.call o' op') := by
            rcases h1 with h1 | ⟨_, h1⟩
            · exact pend_same hn hl.2 t o' op' h1
            · exact h1
          have h8 := again_same h3.symm (by have := hn h t o' op' hl.2 h7; grind)
          rw [h8]; exact h7
        | ret r => simp [pend] at hp
        | read a => simp [pend] at hp
        | write a v => simp [pend] at hp
    · rw [pend_other hu] at hp
      rw [upast_other hu]
      exact pend_same hn hl.2 t o op hp

theorem called (hn : Network C V prod cons) {h : UHist Op Res} {t : Tid} {o : Obj} {op : Op} {log : List Done} {out : Act Op Res}
    (hl : ULegal (lib C) V ((t, .sect o op log out) :: h)) : V t (upast h t) = some (.call o op) := by
  rcases hl.1.1 with h1 | ⟨_, h1⟩
  · exact pend_same hn hl.2 t o op h1
  · exact h1

/-- The elements in channel `o`, what has been pushed and popped, and whether it is closed. -/
def NetSt (C : Chans) (prod cons : Obj → Tid) (h : UHist Op Res) (X : Obj → List Nat) : Prop :=
  ∀ o, Content C (uval h) o (X o) ∧ pushes o (upast h (prod o)) = pops o (upast h (cons o)) ++ X o ∧
    (uval h (closedAt C o) != 0) = closes o (upast h (prod o))

theorem answer_shift {cap : Nat} {q xs : List Nat} {cl : Bool} (op : Op) : answer cap xs 0 cl op = answer cap (q ++ xs) q.length cl op := by
  cases op <;> simp [answer, List.getElem?_append_right]

/-- What a critical section of a network does. -/
theorem sect_answer (hn : Network C V prod cons) {h : UHist Op Res} {t : Tid} {o : Obj} {op : Op} {log : List Done} {out : Act Op Res}
    (hl : ULegal (lib C) V ((t, .sect o op log out) :: h)) {X : Obj → List Nat} (hX : NetSt C prod cons h X) :
    ((t = prod o ∧ (op = .close ∨ ∃ v, op = .push v)) ∨ (t = cons o ∧ op = .pop)) ∧
    out = answer (C.cap o) (pushes o (upast h (prod o))) (pops o (upast h (cons o))).length (closes o (upast h (prod o))) op ∧
      (uval ((t, .sect o op log out) :: h) (closedAt C o) != 0) = (closes o (upast h (prod o)) || op == .close) := by
  have hr := hn h t o op hl.2 (called hn hl)
  obtain ⟨_, he⟩ := sect_eval hl.1
  obtain ⟨h1, h2, h3⟩ := hX o
  obtain ⟨h4, h5⟩ := sec_answer he h1 (by grind)
  refine ⟨hr, ?_, by rw [h5, h3]⟩
  rw [h4, h3, h2]
  exact answer_shift op

theorem net_step (hn : Network C V prod cons) (hcl : Clean (lib C) V) {h : UHist Op Res} {t : Tid} {e : Ev Op Res}
    (hl : ULegal (lib C) V ((t, e) :: h)) {X : Obj → List Nat} (hX : NetSt C prod cons h X) : ∃ X', NetSt C prod cons ((t, e) :: h) X' := by
  have hcong : ∀ o', (∀ a, home C a = some o' → uval ((t, e) :: h) a = uval h a) → uval ((t, e) :: h) (closedAt C o') = uval h (closedAt C o') :=
    fun o' hm => hm _ (home_member C o' 0 (by omega))
  have hs := step_content hcl hl fun o => (hX o).1
  cases e with
  | got a v =>
    refine ⟨X, fun o => ?_⟩
    obtain ⟨h1, h2, h3⟩ := hX o
    refine ⟨h1, ?_, ?_⟩
    · rw [show pushes o (upast ((t, .got a v) :: h) (prod o)) = pushes o (upast h (prod o)) by simp only [upast]; split <;> simp [pushes],
        show pops o (upast ((t, .got a v) :: h) (cons o)) = pops o (upast h (cons o)) by simp only [upast]; split <;> simp [pops]]
      exact h2
    · rw [show closes o (upast ((t, .got a v) :: h) (prod o)) = closes o (upast h (prod o)) by simp only [upast]; split <;> simp [closes]]
      exact h3
  | put a v =>
    have ha : home C a = none := hcl _ _ _ hl a v (.inr rfl)
    refine ⟨X, fun o => ?_⟩
    obtain ⟨h1, h2, h3⟩ := hX o
    rcases hs with ⟨_, _, _, _, h4, _⟩ | ⟨_, _, _, _, _, h4, _⟩ | ⟨_, _, _, h4⟩
    · cases h4
    · cases h4
    refine ⟨h4 o, ?_, ?_⟩
    · rw [show pushes o (upast ((t, .put a v) :: h) (prod o)) = pushes o (upast h (prod o)) by simp only [upast]; split <;> simp [pushes],
        show pops o (upast ((t, .put a v) :: h) (cons o)) = pops o (upast h (cons o)) by simp only [upast]; split <;> simp [pops]]
      exact h2
    · rw [show closes o (upast ((t, .put a v) :: h) (prod o)) = closes o (upast h (prod o)) by simp only [upast]; split <;> simp [closes],
        hcong o, h3]
      intro b hb
      have : a ≠ b := by rintro rfl; rw [ha] at hb; cases hb
      simp [uval, this]
  | sect o op log out =>
    obtain ⟨hr, h1, h2⟩ := sect_answer hn hl hX
    have hcl' : ∀ o', o' ≠ o → uval ((t, .sect o op log out) :: h) (closedAt C o') = uval h (closedAt C o') := by
      intro o' ho'
      refine hcong o' fun a ha => ?_
      have hne : (lib C).home a ≠ some o := by
        change home C a ≠ some o
        rw [ha]; simp; exact ho'
      exact after_home hne hl.1.2.1
    have hXo := hX o
    rcases hr with ⟨rfl, rfl | ⟨v, rfl⟩⟩ | ⟨rfl, rfl⟩
    · -- close
      simp only [answer] at h1
      subst h1
      rcases hs with ⟨_, _, _, _, h4, _⟩ | ⟨_, _, _, _, _, h4, _⟩ | ⟨_, _, _, h4⟩
      · cases h4
      · cases h4
      refine ⟨X, fun o' => ⟨h4 o', ?_, ?_⟩⟩
      · obtain ⟨_, h5, _⟩ := hX o'
        simp only [upast]
        split <;> split <;> simp_all [pushes, pops]
      · obtain ⟨_, _, h5⟩ := hX o'
        by_cases ho : o' = o
        · subst ho
          rw [h2]; simp [upast, closes]
        · rw [hcl' o' ho, h5]
          have ho' : ¬ o = o' := fun h => ho h.symm
          simp only [upast]
          split <;> simp_all [closes]
    · -- push
      have hcl2 : ∀ o' , (uval ((prod o, .sect o (.push v) log out) :: h) (closedAt C o') != 0) = closes o' (upast ((prod o, .sect o (.push v) log out) :: h) (prod o')) := by
        intro o'
        have h6 : closes o' (upast ((prod o, .sect o (.push v) log out) :: h) (prod o')) = closes o' (upast h (prod o')) := by
          simp only [upast]
          split
          · cases out <;> simp [closes]
          · rfl
        rw [h6]
        obtain ⟨_, _, h5⟩ := hX o'
        by_cases ho : o' = o
        · subst ho
          rw [h2]; simp
        · rw [hcl' o' ho, h5]
      have hpops : ∀ o' u, pops o' (upast ((prod o, .sect o (.push v) log out) :: h) u) = pops o' (upast h u) := by
        intro o' u
        simp only [upast]
        split
        · cases out <;> simp [pops]
        · rfl
      rcases hs with ⟨o1, op1, _, v1, h4, h5, h6⟩ | ⟨_, _, _, _, _, h4, h5, h6⟩ | ⟨h4, _, _, h6⟩
      · cases h4
        simp only [offer, Option.some.injEq] at h5
        subst h5
        refine ⟨_, fun o' => ⟨h6 o', ?_, hcl2 o'⟩⟩
        rw [hpops]
        obtain ⟨_, h7, _⟩ := hX o'
        by_cases ho : o' = o
        · subst ho
          simp [upast, pushes, h7]
        · have ho' : ¬ o = o' := fun h => ho h.symm
          simp only [ho, if_false]
          rw [← h7]
          simp only [upast]
          split <;> simp [pushes, ho']
      · cases h4
        simp only [answer] at h1
        split at h1
        · cases h1
        · split at h1 <;> cases h1
      · refine ⟨X, fun o' => ⟨h6 o', ?_, hcl2 o'⟩⟩
        rw [hpops]
        obtain ⟨_, h7, _⟩ := hX o'
        rw [← h7]
        simp only [upast]
        split
        · cases out with
          | ret r =>
            cases r with
            | success => exact absurd rfl (h4 _ _ _)
            | _ => simp [pushes]
          | _ => simp
        · rfl
    · -- pop
      have hcl2 : ∀ o' , (uval ((cons o, .sect o .pop log out) :: h) (closedAt C o') != 0) = closes o' (upast ((cons o, .sect o .pop log out) :: h) (prod o')) := by
        intro o'
        have h6 : closes o' (upast ((cons o, .sect o .pop log out) :: h) (prod o')) = closes o' (upast h (prod o')) := by
          simp only [upast]
          split
          · cases out <;> simp [closes]
          · rfl
        rw [h6]
        obtain ⟨_, _, h5⟩ := hX o'
        by_cases ho : o' = o
        · subst ho
          rw [h2]; simp
        · rw [hcl' o' ho, h5]
      have hpushes : ∀ o' u, pushes o' (upast ((cons o, .sect o .pop log out) :: h) u) = pushes o' (upast h u) := by
        intro o' u
        simp only [upast]
        split
        · cases out <;> simp [pushes]
        · rfl
      rcases hs with ⟨o1, op1, _, v1, h4, h5, h6⟩ | ⟨_, _, _, v, ys, h4, h5, h6⟩ | ⟨_, h4, _, h6⟩
      · cases h4
        cases h5
      · cases h4
        refine ⟨_, fun o' => ⟨h6 o', ?_, hcl2 o'⟩⟩
        rw [hpushes]
        obtain ⟨_, h7, _⟩ := hX o'
        by_cases ho : o' = o
        · subst ho
          simp [upast, pops, h7, h5]
        · have ho' : ¬ o = o' := fun h => ho h.symm
          simp only [ho, if_false]
          rw [h7]
          simp only [upast]
          split <;> simp [pops, ho']
      · refine ⟨X, fun o' => ⟨h6 o', ?_, hcl2 o'⟩⟩
        rw [hpushes]
        obtain ⟨_, h7, _⟩ := hX o'
        rw [h7]
        simp only [upast]
        split
        · cases out with
          | ret r =>
            cases r with
            | value v => exact absurd rfl (h4 _ _ _ v)
            | _ => simp [pops]
          | _ => simp
        · rfl

theorem net_st (hn : Network C V prod cons) (hcl : Clean (lib C) V) : ∀ {h : UHist Op Res}, ULegal (lib C) V h → ∃ X, NetSt C prod cons h X
  | [], _ => ⟨fun _ => [], fun o => ⟨content_init o, by simp [upast, pushes, pops], by simp [upast, closes, uval]⟩⟩
  | (_, _) :: _, hl => by
    obtain ⟨X, hX⟩ := net_st hn hcl hl.2
    exact net_step hn hcl hl hX

/-- A critical section that has begun comes to its end. -/
theorem sect_ends {o : Obj} {t : Tid} {op : Op} {m : Addr → Nat} : ∀ (c : Code) (log : List Done), Ran (lib C) o t op m log → (sec C o op).rest log = c →
    ∃ log, Ran (lib C) o t op m log ∧ ((∃ r, (lib C).code o t op log = .ret r) ∨ ∃ op', (lib C).code o t op log = .again op') := by
  intro c
  induction c with
  | read a k ih =>
    intro log hr hc
    have h1 : (lib C).code o t op log = .read a := by change ((sec C o op).rest log).head = _; rw [hc]; rfl
    exact ih (after m log a) (.got a (after m log a) :: log) ⟨h1, rfl, hr⟩ (by simp only [Sec.rest, hc, Sec.next])
  | write a v k ih =>
    intro log hr hc
    have h1 : (lib C).code o t op log = .write a v := by change ((sec C o op).rest log).head = _; rw [hc]; rfl
    exact ih (.put a v :: log) ⟨h1, hr⟩ (by simp only [Sec.rest, hc, Sec.next])
  | ret r =>
    intro log hr hc
    exact ⟨log, hr, .inl ⟨r, by change ((sec C o op).rest log).head = _; rw [hc]; rfl⟩⟩
  | again op' =>
    intro log hr hc
    exact ⟨log, hr, .inr ⟨op', by change ((sec C o op).rest log).head = _; rw [hc]; rfl⟩⟩

/-- An operation that has been called can do its critical section at any time. -/
theorem can_do (hn : Network C V prod cons) {h : UHist Op Res} (hl : ULegal (lib C) V h) {t : Tid} {o : Obj} {op : Op} (hV : V t (upast h t) = some (.call o op)) :
    ∃ log out, ULegal (lib C) V ((t, .sect o op log out) :: h) := by
  obtain ⟨log, h1, h2⟩ := sect_ends (C := C) (o := o) (t := t) (op := op) (m := uval h) _ [] trivial rfl
  refine ⟨log, _, ⟨⟨?_, h1, rfl, h2⟩, hl⟩⟩
  cases hp : pend h t with
  | none => exact .inr ⟨rfl, hV⟩
  | some x =>
    obtain ⟨o', op'⟩ := x
    have := pend_same hn hl t o' op' hp
    rw [hV] at this
    cases this
    exact .inl rfl

end Verif.Monitor.Chan
