import Verif.BufferedChannelSpec

/-!
# Buffered channel: C17 – C22, C80

The specification (`Spec`, in `Verif/BufferedChannelSpec.lean`) is a bounded queue, a flag and the lists of blocked
fibers; it says which results a call may return in which situation and whom it releases.
-/

namespace Verif.BufCh

variable {V : Type} [DecidableEq V]

/-! ## C17 -/

/-- Values of the successful pushes, in the order they took effect. -/
def pushedVals : List (Obs V) → List V
  | [] => []
  | .ret _ (.push v _) .pushed _ _ :: os => v :: pushedVals os
  | .ret _ (.tryPush v) .pushed _ _ :: os => v :: pushedVals os
  | _ :: os => pushedVals os

/-- Values returned by the successful pops, in the order they took effect. -/
def poppedVals : List (Obs V) → List V
  | [] => []
  | .ret _ _ (.popped (some v)) _ _ :: os => v :: poppedVals os
  | _ :: os => poppedVals os

theorem fifo_run {cap : Nat} (tr : List (Obs V)) : ∀ sp sp' : Spec V, sp.run cap tr = some sp' →
    sp.buf ++ pushedVals tr = poppedVals tr ++ sp'.buf ∧ ∀ f op w t, Obs.ret f op (.popped none) w t ∉ tr := by
  induction tr with
  | nil => intro sp sp' hr; simp only [Spec.run, Option.some.injEq] at hr; subst hr; simp [pushedVals, poppedVals]
  | cons o os ih =>
    intro sp sp' hr
    simp only [Spec.run] at hr
    split at hr
    · cases hr
    · rename_i sp1 h1
      obtain ⟨i1, i2⟩ := ih sp1 sp' hr
      have key : sp.buf ++ pushedVals [o] = poppedVals [o] ++ sp1.buf ∧ ∀ f op w t, o ≠ .ret f op (.popped none) w t := by
        cases o with
        | called f op =>
          simp only [Spec.next] at h1
          split at h1 <;> simp only [Option.some.injEq, reduceCtorEq] at h1
          subst h1; simp [pushedVals, poppedVals]
        | blocks f =>
          simp only [Spec.next] at h1
          split at h1
          · cases h1
          split at h1
          · cases h1
          split at h1 <;> simp only [Option.some.injEq, reduceCtorEq] at h1
          subst h1; simp [pushedVals, poppedVals]
        | expired f t =>
          simp only [Spec.next] at h1
          split at h1
          · cases h1
          split at h1
          · split at h1 <;> simp only [Option.some.injEq, reduceCtorEq] at h1
            subst h1; simp [pushedVals, poppedVals]
          · cases h1
        | ret f op r w t =>
          simp only [Spec.next] at h1
          split at h1
          case isFalse => cases h1
          cases r with
          | pushed =>
            cases op <;> simp only [Spec.ret, Op.value?, reduceCtorEq] at h1
            all_goals
              split at h1 <;> simp only [Option.some.injEq, reduceCtorEq] at h1
              subst h1; simp [pushedVals, poppedVals, Spec.finish, Spec.freed]
          | popped v =>
            cases v with
            | none => simp [Spec.ret] at h1
            | some v =>
              simp only [Spec.ret] at h1
              split at h1
              · rename_i x rest hb
                split at h1 <;> simp only [Option.some.injEq, reduceCtorEq] at h1
                rename_i hx
                subst h1; simp [pushedVals, poppedVals, Spec.finish, Spec.freed, hb, hx.2.1]
              · cases h1
          | timeout =>
            simp only [Spec.ret] at h1
            split at h1
            · split at h1 <;> simp only [Option.some.injEq, reduceCtorEq] at h1
              subst h1; simp [pushedVals, poppedVals, Spec.finish]
            · cases h1
          | void =>
            simp only [Spec.ret] at h1
            split at h1
            · split at h1
              · split at h1 <;> simp only [Option.some.injEq, reduceCtorEq] at h1
                subst h1; simp [pushedVals, poppedVals, Spec.finish]
              · split at h1 <;> simp only [Option.some.injEq, reduceCtorEq] at h1
                subst h1; simp [pushedVals, poppedVals, Spec.finish]
            · cases h1
          | _ =>
            simp only [Spec.ret] at h1
            split at h1 <;> simp only [Option.some.injEq, reduceCtorEq] at h1
            subst h1; simp [pushedVals, poppedVals, Spec.finish]
      have app1 : pushedVals (o :: os) = pushedVals [o] ++ pushedVals os := by
        cases o with
        | ret f op r w t => cases op <;> cases r <;> rfl
        | _ => rfl
      have app2 : poppedVals (o :: os) = poppedVals [o] ++ poppedVals os := by
        cases o with
        | ret f op r w t =>
          cases r with
          | popped v => cases v <;> rfl
          | _ => rfl
        | _ => rfl
      refine ⟨?_, ?_⟩
      · rw [app1, app2, ← List.append_assoc, key.1, List.append_assoc, i1, List.append_assoc]
      · intro f op w t hm
        simp only [List.mem_cons] at hm
        rcases hm with hm | hm
        · exact key.2 f op w t hm.symm
        · exact i2 f op w t hm

/-- **C17.** At every moment the values of the successful pushes, in the order the pushes took effect, are the
values returned by the successful pops in their order, followed by what the channel still holds (`rest`, the
ring's contents from the oldest to the newest). No pop ever returns a moved-from or unwritten object. -/
theorem exactly_once_fifo {cap : Nat} (hc : 2 ≤ cap) {s : State V} {tr : List (Obs V)}
    (h : Reach step (init cap) s tr) :
    ∃ rest, s.ring.Rep rest ∧ pushedVals tr = poppedVals tr ++ rest ∧ ∀ f op w t, Obs.ret f op (.popped none) w t ∉ tr := by
  obtain ⟨sp, h1, h2⟩ := refine_sim hc h
  obtain ⟨h3, h4⟩ := fifo_run tr _ _ h1
  exact ⟨sp.buf, h2.rep, by simpa [Spec.init] using h3, h4⟩

/-- The values the channel holds are determined by the ring. -/
theorem rep_unique {r : Ring V} {l l' : List V} (h : r.Rep l) (h' : r.Rep l') : l = l' := by
  have hl : l.length = l'.length := by
    have h1 := h.pidx; rw [h'.pidx] at h1
    exact (Ring.off_inj h'.lt h.lt h1).symm
  refine List.ext_getElem hl ?_
  intro i hi hi'
  have := h.val i hi
  rw [h'.val i hi'] at this
  exact (Option.some.inj this).symm

/-- **C17–C22.** Every trace of the channel conforms to the bounded-queue specification. -/
theorem conforms {cap : Nat} (hc : 2 ≤ cap) {s : State V} {tr : List (Obs V)} (h : Reach step (init cap) s tr) :
    ∃ sp, Spec.init.run cap tr = some sp ∧ s.ring.Rep sp.buf ∧ sp.closed = s.closed := by
  obtain ⟨sp, h1, h2⟩ := refine_sim hc h
  exact ⟨sp, h1, h2.rep, h2.cl⟩

/-! ## C18 -/

/-- **C18.** The channel never holds more than `cap - 1` values. -/
theorem holds_at_most {cap : Nat} (hc : 2 ≤ cap) {s : State V} {tr : List (Obs V)} (h : Reach step (init cap) s tr) :
    ∃ l, s.ring.Rep l ∧ l.length ≤ cap - 1 := by
  obtain ⟨sp, h1, h2, h3⟩ := reach_spec hc h
  exact ⟨sp.buf, h2.rep, h3.len⟩

/-- **C18.** What a push does is determined by the number of values held: `try_push` returns `full`, and `push`
blocks, exactly when the open channel holds `cap - 1` values; otherwise they succeed. -/
theorem push_decision {cap : Nat} (hc : 2 ≤ cap) {s : State V} {tr : List (Obs V)} (h : Reach step (init cap) s tr)
    {l : List V} (hl : s.ring.Rep l) {f : Fid} {v : V} (ho : s.closed = false) :
    (s.pc f = .entry (.tryPush v) → ∃ s' w, step s (.run f) =
      some (s', [.ret f (.tryPush v) (if l.length = cap - 1 then .full else .pushed) w s.now])) ∧
    (∀ dl, s.pc f = .entry (.push v dl) → ∃ s' w, step s (.run f) =
      some (s', [if l.length = cap - 1 then .blocks f else .ret f (.push v dl) .pushed w s.now])) := by
  obtain ⟨sp, h1, h2⟩ := refine_sim hc h
  have hf := Ring.isFull_iff hl
  rw [h2.cap] at hf
  constructor
  · intro hp
    simp only [step, run, hp, cs, tryPushCS, ho, Bool.false_eq_true, if_false]
    split
    · rename_i hfull; rw [if_pos (hf.1 hfull)]; exact ⟨_, _, rfl⟩
    · rename_i hfull; rw [if_neg (fun hx => hfull (hf.2 hx))]; exact ⟨_, _, rfl⟩
  · intro dl hp
    simp only [step, run, hp, cs, pushCS, ho, Bool.false_eq_true, if_false]
    split
    · rename_i hfull; simp only [if_pos (hf.1 hfull)]; exact ⟨_, [], rfl⟩
    · rename_i hfull; simp only [if_neg (fun hx => hfull (hf.2 hx))]; exact ⟨_, _, rfl⟩

/-- **C18.** The constructor accepts exactly the powers of two from 2 on. -/
theorem construct_iff (cap : Nat) :
    ((∃ k, 1 ≤ k ∧ cap = 2 ^ k) → (construct cap : Except Err (State V)) = .ok (init cap)) ∧
    ((¬ ∃ k, 1 ≤ k ∧ cap = 2 ^ k) → (construct cap : Except Err (State V)) = .error .invalidArgument) := by
  have key : Ring.badCap cap = false ↔ ∃ k, 1 ≤ k ∧ cap = 2 ^ k := by
    simp only [Ring.badCap, Bool.or_eq_false_iff, decide_eq_false_iff_not, Nat.not_lt, bne_eq_false_iff_eq]
    constructor
    · rintro ⟨h1, h2⟩
      obtain ⟨k, hk⟩ := (Nat.and_sub_one_eq_zero_iff_isPowerOfTwo (by omega)).1 h2.symm
      refine ⟨k, ?_, hk⟩
      rcases k with _ | k
      · simp at hk; omega
      · omega
    · rintro ⟨k, hk, rfl⟩
      refine ⟨?_, ((Nat.and_sub_one_eq_zero_iff_isPowerOfTwo (Nat.pos_iff_ne_zero.1 (Nat.two_pow_pos k))).2 ⟨k, rfl⟩).symm⟩
      calc 2 = 2 ^ 1 := rfl
        _ ≤ 2 ^ k := Nat.pow_le_pow_right (by omega) hk
  constructor
  · intro h; simp [construct, key.2 h]
  · intro h
    have : Ring.badCap cap = true := by
      cases hb : Ring.badCap cap
      · exact absurd (key.1 hb) h
      · rfl
    simp [construct, this]

/-! ## C19 -/

/-- `close()` has returned. -/
def closedIn (tr : List (Obs V)) : Prop := ∃ f r w t, Obs.ret f .close r w t ∈ tr

theorem closed_run {cap : Nat} (tr : List (Obs V)) : ∀ sp sp' : Spec V, sp.run cap tr = some sp' →
    (sp.closed = true ∨ closedIn tr ↔ sp'.closed = true) := by
  induction tr with
  | nil => intro sp sp' hr; simp only [Spec.run, Option.some.injEq] at hr; subst hr; simp [closedIn]
  | cons o os ih =>
    intro sp sp' hr
    simp only [Spec.run] at hr
    split at hr
    · cases hr
    · rename_i sp1 h1
      have i1 := ih sp1 sp' hr
      rw [← i1]
      have hcons : closedIn (o :: os) ↔ (∃ f r w t, o = .ret f .close r w t) ∨ closedIn os := by
        simp only [closedIn, List.mem_cons]
        constructor
        · rintro ⟨f, r, w, t, h | h⟩
          · exact Or.inl ⟨f, r, w, t, h.symm⟩
          · exact Or.inr ⟨f, r, w, t, h⟩
        · rintro (⟨f, r, w, t, h⟩ | ⟨f, r, w, t, h⟩)
          · exact ⟨f, r, w, t, Or.inl h.symm⟩
          · exact ⟨f, r, w, t, Or.inr h⟩
      have key : sp.closed = true ∨ (∃ f r w t, o = .ret f .close r w t) ↔ sp1.closed = true := by
        cases o with
        | called f op =>
          simp only [Spec.next] at h1
          split at h1 <;> simp only [Option.some.injEq, reduceCtorEq] at h1
          subst h1; simp
        | blocks f =>
          simp only [Spec.next] at h1
          split at h1
          · cases h1
          split at h1
          · cases h1
          split at h1 <;> simp only [Option.some.injEq, reduceCtorEq] at h1
          subst h1; simp
        | expired f t =>
          simp only [Spec.next] at h1
          split at h1
          · cases h1
          split at h1
          · split at h1 <;> simp only [Option.some.injEq, reduceCtorEq] at h1
            subst h1; simp
          · cases h1
        | ret f op r w t =>
          simp only [Spec.next] at h1
          split at h1
          case isFalse => cases h1
          cases op <;> cases r <;> simp only [Spec.ret, Op.value?, Op.dl, Op.isPop, Op.isTryPush] at h1 <;>
            grind [Spec.finish, Spec.freed]
      rw [hcons]
      grind

/-- A step emits at most one observation. -/
theorem single_obs {s s' : State V} {o : List (Obs V)} {e : Event V} (hs : step s e = some (s', o)) :
    ∀ x ∈ o, o = [x] := by
  intro x hx
  cases e with
  | run g =>
    simp only [step, run] at hs
    split at hs
    · cases hs
    · simp only [Option.some.injEq] at hs
      cases hcs : cs s ‹_› <;> simp only [apply, hcs, Prod.mk.injEq] at hs
      case block => grind
      all_goals (obtain ⟨-, rfl⟩ := hs; simp only [List.mem_singleton] at hx; rw [hx])
    · grind
    · grind
  | timer g => simp only [step] at hs; grind
  | fail g => simp only [step, runFail] at hs; grind
  | _ => simp only [step] at hs; grind

/-- **C19.** After `close()` has returned, a push returns `closed` (a timed push that resumes after its deadline
may say `timeout`) and enqueues nothing; a pop returns the oldest value as long as there is one (or the exception of
moving it, which leaves it there), and afterwards `closed` (`value_pop` throws); nothing blocks. -/
theorem after_close {cap : Nat} (hc : 2 ≤ cap) {s s' : State V} {tr o : List (Obs V)} {e : Event V}
    (h : Reach step (init cap) s tr) (hcl : closedIn tr) (hs : step s e = some (s', o)) {l : List V}
    (hl : s.ring.Rep l) :
    (∀ f, Obs.blocks f ∉ o) ∧
    ∀ f op r w t, Obs.ret f op r w t ∈ o →
      (∀ v, op.value? = some v → (r = .closed ∨ (r = .timeout ∧ ∃ d, op.dl = some d ∧ d ≤ t)) ∧ s'.ring.Rep l) ∧
      (op.isPop = true →
        (∃ x l', l = x :: l' ∧ r = .popped (some x) ∧ s'.ring.Rep l') ∨
        (l ≠ [] ∧ r = .failed ∧ s'.ring.Rep l) ∨
        (l = [] ∧ op ≠ .valuePop ∧ r = .closed) ∨ (l = [] ∧ op = .valuePop ∧ r = .threw) ∨
        (r = .timeout ∧ ∃ d, op.dl = some d ∧ d ≤ t)) := by
  obtain ⟨sp, h1, h2⟩ := refine_sim hc h
  obtain ⟨sp', h3, h4⟩ := refine_sim hc (Reach.tail e h hs)
  rw [Spec.run_append h1] at h3
  have hb := rep_unique hl h2.rep
  subst hb
  have hcl' : sp.closed = true := (closed_run tr _ _ h1).1 (Or.inr hcl)
  have ho := single_obs hs
  refine ⟨?_, ?_⟩
  · intro f hf
    have := ho _ hf
    subst this
    simp only [Spec.run_one, Spec.next, Spec.mayBlock, hcl'] at h3
    grind
  · intro f op r w t hf
    have := ho _ hf
    subst this
    simp only [Spec.run_one, Spec.next] at h3
    split at h3
    case isFalse => cases h3
    have hrep := h4.rep
    constructor
    · intro v hv
      cases op <;> simp only [Op.value?, reduceCtorEq] at hv <;> cases r <;>
        simp only [Spec.ret, Op.value?, Op.dl, Op.isPop, Op.isTryPush, hcl'] at h3 <;>
        grind [Spec.finish, Spec.freed, Op.dl]
    · intro hpop
      cases op <;> simp only [Op.isPop, Bool.false_eq_true] at hpop <;> cases r <;>
        simp only [Spec.ret, Op.value?, Op.dl, Op.isPop, Op.isTryPush, hcl'] at h3 <;>
        grind [Spec.finish, Spec.freed, Op.dl]

/-- Whoever is inside a call and not blocked can take a step. -/
theorem enabled_of_not_blocked {cap : Nat} {s : State V} {sp : Spec V} (hi : Inv s) (m : Sim cap s sp) {f : Fid}
    (hf : s.pc f ≠ .idle) (hb : sp.blocked f = false) : step s (.run f) ≠ none := by
  simp only [step, run]
  cases hp : s.pc f with
  | idle => exact absurd hp hf
  | entry op => simp
  | waiting op ep =>
    have hr : s.c.ready f = true := by
      cases hr : s.c.ready f
      · have := (sim_blocked hi m).2 ⟨op, ep, hp, hr⟩; simp [hb] at this
      · rfl
    simp only [hr, if_true]
    split
    · simp
    · split <;> simp
  | unlink op ep =>
    obtain ⟨i, h⟩ := hi.sd f op ep (Or.inr hp)
    simp [h]

/-- **C19.** After `close()` nobody is blocked: every fiber inside a call can take its next step. -/
theorem closed_nobody_blocked {cap : Nat} (hc : 2 ≤ cap) {s : State V} {tr : List (Obs V)}
    (h : Reach step (init cap) s tr) (hcl : closedIn tr) {f : Fid} (hf : s.pc f ≠ .idle) :
    step s (.run f) ≠ none := by
  obtain ⟨sp, h1, h2, h3⟩ := reach_spec hc h
  have hcl' : sp.closed = true := (closed_run tr _ _ h1).1 (Or.inr hcl)
  have hi := reach_inv h
  have hnb : sp.blocked f = false := by
    rw [← Bool.not_eq_true, blocked_iff]; rintro ⟨i, hi⟩; simp [h3.cl hcl' i] at hi
  exact enabled_of_not_blocked hi h2 hf hnb

/-! ## C20 and C21 -/

/-- `f` is blocked: suspended in its call, and nothing has released it. -/
def Blocked (s : State V) (f : Fid) (i : Side) : Prop :=
  ∃ op ep, s.pc f = .waiting op ep ∧ op.side = some i ∧ s.c.ready f = false

/-- How many operations of side `i` the channel could accept: the values it holds, or its free places. -/
def room (cap : Nat) (l : List V) : Side → Nat
  | .cons => l.length
  | .prod => cap - 1 - l.length

/-- **C21 (what holds), C20.** As long as no fiber that was released by another call has returned `timeout`, or the exception
of copying or moving a value: if a
consumer (producer) is blocked, then for every value the channel holds (for every free place) there is a
different fiber which has been released, is inside a blocking pop (push) and can take a step; and the channel
is open.

Missing for C21: executions in which a released fiber does give up; there the property is false
(`timed_giveup_strands_consumer`, `timed_giveup_strands_producer`; `throwing_pop_strands_consumer`,
`throwing_push_strands_producer` for C80). -/
theorem blocked_means_served_partial {cap : Nat} (hc : 2 ≤ cap) {s : State V} {tr : List (Obs V)}
    (h : Reach step (init cap) s tr) {sp : Spec V} (hsp : Spec.init.run cap tr = some sp)
    (hsw : sp.swallowed = false) {l : List V} (hl : s.ring.Rep l) {f : Fid} {i : Side} (hb : Blocked s f i) :
    s.closed = false ∧
    ∃ gs : List Fid, gs.Nodup ∧ room cap l i ≤ gs.length ∧
      ∀ g ∈ gs, (∃ op, sp.inCall g = some op ∧ op.side = some i) ∧ step s (.run g) ≠ none := by
  obtain ⟨sp', h1, h2, h3⟩ := reach_spec hc h
  rw [hsp] at h1; cases h1
  have hi := reach_inv h
  have hbuf := rep_unique hl h2.rep
  subst hbuf
  obtain ⟨op, ep, hp, hs, hr⟩ := hb
  have hcall : sp.inCall f = some op := by rw [h2.call, hp]; rfl
  obtain ⟨j, hj⟩ := blocked_iff.1 ((sim_blocked hi h2).2 ⟨op, ep, hp, hr⟩)
  have hji : j = i := by
    obtain ⟨op', a, b⟩ := h3.wt f j hj
    rw [hcall] at a; cases a; rw [hs] at b; cases b; rfl
  subst hji
  refine ⟨?_, ?_⟩
  · cases hcl : s.closed
    · rfl
    · have := h3.cl (by rw [h2.cl, hcl]) j; rw [this] at hj; simp at hj
  · have hne : sp.waiting j ≠ [] := List.ne_nil_of_mem hj
    have hen : sp.Enough j (room cap sp.buf j) := by
      cases j
      · exact h3.cp hsw hne
      · exact h3.cc hsw hne
    obtain ⟨gs, a, b, c⟩ := hen
    refine ⟨gs, a, c, ?_⟩
    intro g hg
    obtain ⟨b1, b2⟩ := b g hg
    refine ⟨b2, enabled_of_not_blocked hi h2 ?_ (h3.rl g b1).2⟩
    obtain ⟨op', b3, -⟩ := b2
    intro hpg; rw [h2.call, hpg] at b3; simp [opOf] at b3

/-- Only untimed calls were made. -/
def Untimed (tr : List (Obs V)) : Prop := ∀ f op, Obs.called f op ∈ tr → op.dl = none

/-- No copy or move of a value has thrown. -/
def NoThrow (tr : List (Obs V)) : Prop := ∀ f op w t, Obs.ret f op .failed w t ∉ tr

theorem untimed_run {cap : Nat} (tr : List (Obs V)) : ∀ sp sp' : Spec V, Untimed tr → NoThrow tr → sp.run cap tr = some sp' →
    (∀ f op, sp.inCall f = some op → op.dl = none) → sp.swallowed = false → sp'.swallowed = false := by
  induction tr with
  | nil => intro sp sp' _ _ hr; simp only [Spec.run, Option.some.injEq] at hr; subst hr; exact fun _ h => h
  | cons o os ih =>
    intro sp sp' hu hnt hr hcall hsw
    simp only [Spec.run] at hr
    split at hr
    · cases hr
    · rename_i sp1 h1
      have hu' : Untimed os := fun f op hm => hu f op (by simp [hm])
      have hnt' : NoThrow os := fun f op w t hm => hnt f op w t (by simp [hm])
      have key : (∀ f op, sp1.inCall f = some op → op.dl = none) ∧ sp1.swallowed = false := by
        have fin : ∀ f g op, (upd sp.inCall f none) g = some op → op.dl = none := by
          intro f g op hg; simp only [upd_apply] at hg; split at hg
          · cases hg
          · exact hcall g op hg
        cases o with
        | called f op =>
          simp only [Spec.next] at h1
          split at h1 <;> simp only [Option.some.injEq, reduceCtorEq] at h1
          subst h1
          refine ⟨?_, hsw⟩
          intro g op' hg
          simp only [upd_apply] at hg
          split at hg
          · cases hg; exact hu f op (by simp)
          · exact hcall g op' hg
        | blocks f =>
          simp only [Spec.next] at h1
          split at h1
          · cases h1
          split at h1
          · cases h1
          split at h1 <;> simp only [Option.some.injEq, reduceCtorEq] at h1
          subst h1; exact ⟨hcall, hsw⟩
        | expired f t =>
          simp only [Spec.next] at h1
          split at h1
          · cases h1
          split at h1
          · split at h1 <;> simp only [Option.some.injEq, reduceCtorEq] at h1
            subst h1; exact ⟨hcall, hsw⟩
          · cases h1
        | ret f op r w t =>
          simp only [Spec.next] at h1
          split at h1
          case isFalse => cases h1
          rename_i hx
          have hdl := hcall f op hx.1
          have h2 : sp1.inCall = upd sp.inCall f none ∧ sp1.swallowed = false := by
            have hnf : r ≠ .failed := by rintro rfl; exact hnt f op w t (by simp)
            clear fin hcall ih hr hu hu' hnt hnt'
            cases r <;> simp only [Spec.ret, hdl] at h1 <;> grind [Spec.finish, Spec.freed]
          exact ⟨fun g op' hg => fin f g op' (h2.1 ▸ hg), h2.2⟩
      exact ih sp1 sp' hu' hnt' hr key.1 key.2

/-- **C20.** With untimed calls only and values that do not throw: if a consumer (producer) is blocked, then for every value the channel holds
(every free place) there is a different, already released fiber inside a blocking pop (push) that can take a
step; and the channel is open. -/
theorem blocked_means_served {cap : Nat} (hc : 2 ≤ cap) {s : State V} {tr : List (Obs V)}
    (h : Reach step (init cap) s tr) (hu : Untimed tr) (hnt : NoThrow tr) {l : List V} (hl : s.ring.Rep l) {f : Fid} {i : Side}
    (hb : Blocked s f i) :
    s.closed = false ∧ ∃ gs : List Fid, gs.Nodup ∧ room cap l i ≤ gs.length ∧ ∀ g ∈ gs, step s (.run g) ≠ none := by
  obtain ⟨sp, h1, h2⟩ := refine_sim hc h
  obtain ⟨a, gs, b, c, d⟩ := blocked_means_served_partial hc h h1
    (untimed_run tr _ _ hu hnt h1 (by simp [Spec.init]) rfl) hl hb
  exact ⟨a, gs, b, c, fun g hg => (d g hg).2⟩

/-- **C20**, as quiescence: with untimed calls only and values that do not throw, when no fiber inside a call can run, a blocked producer means
a full open channel and a blocked consumer an empty open one. -/
theorem quiescent_blocked {cap : Nat} (hc : 2 ≤ cap) {s : State V} {tr : List (Obs V)}
    (h : Reach step (init cap) s tr) (hu : Untimed tr) (hnt : NoThrow tr) (hq : ∀ g, step s (.run g) = none) {l : List V}
    (hl : s.ring.Rep l) {f : Fid} :
    (Blocked s f .prod → s.closed = false ∧ l.length = cap - 1) ∧ (Blocked s f .cons → s.closed = false ∧ l = []) := by
  have hlen : l.length ≤ cap - 1 := by
    obtain ⟨l', h1, h2⟩ := holds_at_most hc h
    rw [rep_unique hl h1]; exact h2
  have key : ∀ i, Blocked s f i → s.closed = false ∧ room cap l i = 0 := by
    intro i hb
    obtain ⟨a, gs, -, c, d⟩ := blocked_means_served hc h hu hnt hl hb
    refine ⟨a, ?_⟩
    cases gs with
    | nil => simpa using c
    | cons g gs => exact absurd (hq g) (d g (by simp))
  constructor
  · intro hb; obtain ⟨a, b⟩ := key _ hb; exact ⟨a, by simp only [room] at b; omega⟩
  · intro hb; obtain ⟨a, b⟩ := key _ hb; exact ⟨a, by simpa [room] using b⟩

/-- A timed consumer (2) and an untimed one (3) wait; a push releases 2, which resumes after its deadline. -/
def strandConsumer : List (Event Nat) :=
  [.call 2 (.pop (some 5)), .run 2, .call 3 (.pop none), .run 3, .call 1 (.push 7 none), .run 1, .tick 5,
   .run 2, .run 2]

/-- **C21 is false of the code (consumers).** An execution after which a timed pop has returned `timeout`, the open
channel holds a value, a fiber is blocked in `pop`, and nothing can run any more. -/
theorem timed_giveup_strands_consumer :
    ∃ (s : State Nat) (tr : List (Obs Nat)), Reach step (init 2) s tr ∧
      Obs.ret 2 (.pop (some 5)) .timeout [] 5 ∈ tr ∧ s.closed = false ∧ s.ring.Rep [7] ∧ Blocked s 3 .cons ∧
      ∀ g, step s (.run g) = none ∧ step s (.timer g) = none := by
  refine ⟨_, _, reach_of_exec (es := strandConsumer) rfl, by decide, rfl, ?_, ⟨.pop none, 1, rfl, rfl, rfl⟩, ?_⟩
  · refine ⟨by decide, by decide, rfl, ?_⟩
    intro i hi; have : i = 0 := by simpa using hi
    subst this; rfl
  · intro g
    by_cases h3 : g = 3
    · subst h3; exact ⟨rfl, rfl⟩
    · by_cases h2 : g = 2
      · subst h2; exact ⟨rfl, rfl⟩
      · by_cases h1 : g = 1
        · subst h1; exact ⟨rfl, rfl⟩
        · simp [step, run, strandConsumer, upd, h1, h2, h3, init, apply, cs, popCS, pushCS]

/-- The same for producers: the channel is full, a timed push (2) and an untimed one (3) wait; a pop releases 2. -/
def strandProducer : List (Event Nat) :=
  [.call 1 (.push 6 none), .run 1, .call 2 (.push 7 (some 5)), .run 2, .call 3 (.push 8 none), .run 3,
   .call 1 (.pop none), .run 1, .tick 5, .run 2, .run 2]

/-- **C21 is false of the code (producers).** An execution after which a timed push has returned `timeout`, the open
channel is empty, a fiber is blocked in `push`, and nothing can run any more. -/
theorem timed_giveup_strands_producer :
    ∃ (s : State Nat) (tr : List (Obs Nat)), Reach step (init 2) s tr ∧
      Obs.ret 2 (.push 7 (some 5)) .timeout [] 5 ∈ tr ∧ s.closed = false ∧ s.ring.Rep [] ∧ Blocked s 3 .prod ∧
      ∀ g, step s (.run g) = none ∧ step s (.timer g) = none := by
  refine ⟨_, _, reach_of_exec (es := strandProducer) rfl, by decide, rfl, ?_, ⟨.push 8 none, 1, rfl, rfl, rfl⟩, ?_⟩
  · exact ⟨by decide, by decide, rfl, by simp⟩
  · intro g
    by_cases h3 : g = 3
    · subst h3; exact ⟨rfl, rfl⟩
    · by_cases h2 : g = 2
      · subst h2; exact ⟨rfl, rfl⟩
      · by_cases h1 : g = 1
        · subst h1; exact ⟨rfl, rfl⟩
        · simp [step, run, strandProducer, upd, h1, h2, h3, init, apply, cs, popCS, pushCS]

/-! ## C22 -/

/-- **C22.** A timed push returns `pushed` exactly if its value was appended, `timeout` only at or after its deadline
and without any effect on the contents, `closed` only if the channel is closed and without effect, the exception of
copying its value without effect; it returns nothing else. A timed pop likewise. -/
theorem timed_ops_truthful {cap : Nat} (hc : 2 ≤ cap) {s s' : State V} {tr o : List (Obs V)} {e : Event V}
    (h : Reach step (init cap) s tr) (hs : step s e = some (s', o)) {l : List V} (hl : s.ring.Rep l)
    {f : Fid} {r : Res V} {w : List Fid} {t d : Nat} :
    (∀ v, Obs.ret f (.push v (some d)) r w t ∈ o →
      (r = .pushed ∧ s'.ring.Rep (l ++ [v])) ∨ (r = .timeout ∧ d ≤ t ∧ s'.ring.Rep l) ∨
      (r = .closed ∧ s.closed = true ∧ s'.ring.Rep l) ∨ (r = .failed ∧ s'.ring.Rep l)) ∧
    (Obs.ret f (.pop (some d)) r w t ∈ o →
      (∃ x l', l = x :: l' ∧ r = .popped (some x) ∧ s'.ring.Rep l') ∨ (r = .timeout ∧ d ≤ t ∧ s'.ring.Rep l) ∨
      (r = .closed ∧ s.closed = true ∧ l = [] ∧ s'.ring.Rep l) ∨ (r = .failed ∧ s'.ring.Rep l)) := by
  obtain ⟨sp, h1, h2⟩ := refine_sim hc h
  obtain ⟨sp', h3, h4⟩ := refine_sim hc (Reach.tail e h hs)
  rw [Spec.run_append h1] at h3
  have hb := rep_unique hl h2.rep
  subst hb
  have hcl := h2.cl
  have hrep := h4.rep
  have ho := single_obs hs
  constructor
  · intro v hm
    have := ho _ hm
    subst this
    simp only [Spec.run_one, Spec.next] at h3
    split at h3
    case isFalse => cases h3
    cases r <;> simp only [Spec.ret, Op.value?, Op.dl, Op.isPop, Op.isTryPush] at h3 <;>
        grind [Spec.finish, Spec.freed]
  · intro hm
    have := ho _ hm
    subst this
    simp only [Spec.run_one, Spec.next] at h3
    split at h3
    case isFalse => cases h3
    cases r <;> simp only [Spec.ret, Op.value?, Op.dl, Op.isPop, Op.isTryPush] at h3 <;>
        grind [Spec.finish, Spec.freed]

/-! ## C80 -/

/-- **C80 (what holds): nothing is lost.** A call that ends with the exception of copying or moving its value leaves the
contents and the state of the channel as they were, and releases nobody; it was a push that had room or a pop that had
a value. With `exactly_once_fifo` and `conforms`, whose executions include such calls, the channel stays usable: every
later call does what the specification says.

Missing for C80: that the others are still served (`throwing_pop_strands_consumer`, `throwing_push_strands_producer`);
they are if the call that throws had not been blocked before (`blocked_means_served_partial`). -/
theorem throwing_value_partial {cap : Nat} (hc : 2 ≤ cap) {s s' : State V} {tr o : List (Obs V)} {e : Event V}
    (h : Reach step (init cap) s tr) (hs : step s e = some (s', o)) {l : List V} (hl : s.ring.Rep l)
    {f : Fid} {op : Op V} {w : List Fid} {t : Nat} (hf : Obs.ret f op .failed w t ∈ o) :
    s'.ring.Rep l ∧ s'.closed = s.closed ∧ (∀ g, g ≠ f → s'.pc g = s.pc g) ∧ s'.c = s.c ∧ w = [] ∧
      ((op.value?.isSome ∧ s.closed = false ∧ l.length < cap - 1) ∨ (op.isPop ∧ l ≠ [])) := by
  obtain ⟨sp, h1, h2⟩ := refine_sim hc h
  obtain ⟨sp', h3, h4⟩ := refine_sim hc (Reach.tail e h hs)
  rw [Spec.run_append h1] at h3
  have hb := rep_unique hl h2.rep
  subst hb
  have ho := single_obs hs _ hf
  subst ho
  simp only [Spec.run_one, Spec.next] at h3
  split at h3
  case isFalse => cases h3
  simp only [Spec.ret] at h3
  split at h3 <;> simp only [Option.some.injEq, reduceCtorEq] at h3
  rename_i hx
  rw [h2.cl] at hx
  have hfail : s'.closed = s.closed ∧ (∀ g, g ≠ f → s'.pc g = s.pc g) ∧ s'.c = s.c := by
    have hret : ∀ {x y : State V × List (Obs V)}, some x = some y → x = y := fun h => Option.some.inj h
    cases e with
    | fail g =>
      simp only [step, runFail] at hs
      split at hs <;> try simp only [reduceCtorEq] at hs
      split at hs <;> simp only [Option.some.injEq, Prod.mk.injEq, List.cons.injEq, Obs.ret.injEq, reduceCtorEq] at hs <;>
        obtain ⟨rfl, ⟨rfl, -⟩, -⟩ := hs <;> exact ⟨rfl, fun g hg => upd_other _ _ hg, rfl⟩
    | run g =>
      exfalso
      simp only [step, run] at hs
      split at hs
      · cases hs
      · rename_i op' _
        have hs := congrArg Prod.snd (hret hs)
        have hcs : ∀ r, cs s op' = .ret r → r ≠ .failed := by
          intro r hr
          cases op' <;> simp only [cs, pushCS, tryPushCS, popCS, valuePopCS, tryPopCS, closeCS] at hr <;> grind
        cases hc : cs s op' <;> simp only [apply, hc] at hs
        case block => split at hs <;> cases hs
        all_goals simp only [List.cons.injEq, Obs.ret.injEq, and_true, reduceCtorEq, false_and, and_false] at hs
        exact hcs _ hc hs.2.2.1
      · grind
      · grind
    | timer g => simp only [step] at hs; grind
    | _ => simp only [step] at hs; grind
  refine ⟨?_, hfail.1, hfail.2.1, hfail.2.2, hx.1, hx.2⟩
  have := h4.rep
  rw [← h3] at this
  exact this

/-- Two consumers wait; a push releases the first, whose move of the value throws. -/
def throwConsumer : List (Event Nat) :=
  [.call 2 (.pop none), .run 2, .call 3 (.pop none), .run 3, .call 1 (.push 7 none), .run 1, .run 2, .fail 2]

/-- **C80 is false of the code (consumers).** An execution without timed calls after which a pop has ended with the
exception of moving the value, the open channel holds that value, a fiber is blocked in `pop`, and nothing can run any
more. -/
theorem throwing_pop_strands_consumer :
    ∃ (s : State Nat) (tr : List (Obs Nat)), Reach step (init 2) s tr ∧
      Obs.ret 2 (.pop none) .failed [] 0 ∈ tr ∧ s.closed = false ∧ s.ring.Rep [7] ∧ Blocked s 3 .cons ∧
      ∀ g, step s (.run g) = none ∧ step s (.timer g) = none ∧ step s (.fail g) = none := by
  refine ⟨_, _, reach_of_exec (es := throwConsumer) rfl, by decide, rfl, ?_, ⟨.pop none, 1, rfl, rfl, rfl⟩, ?_⟩
  · refine ⟨by decide, by decide, rfl, ?_⟩
    intro i hi; have : i = 0 := by simpa using hi
    subst this; rfl
  · intro g
    by_cases h3 : g = 3
    · subst h3; exact ⟨rfl, rfl, rfl⟩
    · by_cases h2 : g = 2
      · subst h2; exact ⟨rfl, rfl, rfl⟩
      · by_cases h1 : g = 1
        · subst h1; exact ⟨rfl, rfl, rfl⟩
        · simp [step, run, runFail, throwConsumer, upd, h1, h2, h3, init, apply, cs, popCS, pushCS]

/-- The channel is full, two producers wait; a pop releases the first, whose copy of the value throws. -/
def throwProducer : List (Event Nat) :=
  [.call 1 (.push 6 none), .run 1, .call 2 (.push 7 none), .run 2, .call 3 (.push 8 none), .run 3,
   .call 1 (.pop none), .run 1, .run 2, .fail 2]

/-- **C80 is false of the code (producers).** An execution without timed calls after which a push has ended with the
exception of copying its value, the open channel is empty, a fiber is blocked in `push`, and nothing can run any
more. -/
theorem throwing_push_strands_producer :
    ∃ (s : State Nat) (tr : List (Obs Nat)), Reach step (init 2) s tr ∧
      Obs.ret 2 (.push 7 none) .failed [] 0 ∈ tr ∧ s.closed = false ∧ s.ring.Rep [] ∧ Blocked s 3 .prod ∧
      ∀ g, step s (.run g) = none ∧ step s (.timer g) = none ∧ step s (.fail g) = none := by
  refine ⟨_, _, reach_of_exec (es := throwProducer) rfl, by decide, rfl, ?_, ⟨.push 8 none, 1, rfl, rfl, rfl⟩, ?_⟩
  · exact ⟨by decide, by decide, rfl, by simp⟩
  · intro g
    by_cases h3 : g = 3
    · subst h3; exact ⟨rfl, rfl, rfl⟩
    · by_cases h2 : g = 2
      · subst h2; exact ⟨rfl, rfl, rfl⟩
      · by_cases h1 : g = 1
        · subst h1; exact ⟨rfl, rfl, rfl⟩
        · simp [step, run, runFail, throwProducer, upd, h1, h2, h3, init, apply, cs, popCS, pushCS]

/-! ## Non-vacuity -/

/-- Capacity 4: three pushes fill the channel, a fourth blocks, a pop frees a place and releases it, ring indices
wrap, close, drain. -/
def demo : List (Event Nat) :=
  [.call 1 (.push 10 none), .run 1, .call 1 (.tryPush 11), .run 1, .call 1 (.push 12 (some 9)), .run 1,
   .call 1 (.tryPush 99), .run 1, .call 2 (.push 13 none), .run 2, .call 3 (.pop none), .run 3, .run 2, .run 2,
   .call 3 .valuePop, .run 3, .call 4 .close, .run 4, .call 1 (.push 14 none), .run 1,
   .call 3 .tryPop, .run 3, .call 3 (.pop (some 3)), .run 3, .call 3 .valuePop, .run 3]

def demoTrace : List (Obs Nat) :=
  [.called 1 (.push 10 none), .ret 1 (.push 10 none) .pushed [] 0, .called 1 (.tryPush 11),
   .ret 1 (.tryPush 11) .pushed [] 0, .called 1 (.push 12 (some 9)), .ret 1 (.push 12 (some 9)) .pushed [] 0,
   .called 1 (.tryPush 99), .ret 1 (.tryPush 99) .full [] 0, .called 2 (.push 13 none), .blocks 2,
   .called 3 (.pop none), .ret 3 (.pop none) (.popped (some 10)) [2] 0, .ret 2 (.push 13 none) .pushed [] 0,
   .called 3 .valuePop, .ret 3 .valuePop (.popped (some 11)) [] 0, .called 4 .close, .ret 4 .close .void [] 0,
   .called 1 (.push 14 none), .ret 1 (.push 14 none) .closed [] 0, .called 3 .tryPop,
   .ret 3 .tryPop (.popped (some 12)) [] 0, .called 3 (.pop (some 3)),
   .ret 3 (.pop (some 3)) (.popped (some 13)) [] 0, .called 3 .valuePop, .ret 3 .valuePop .threw [] 0]

example : ∃ s, Reach step (init 4) s demoTrace := ⟨_, reach_of_exec (es := demo) rfl⟩
example : pushedVals demoTrace = [10, 11, 12, 13] ∧ poppedVals demoTrace = [10, 11, 12, 13] := by decide
example : closedIn demoTrace := ⟨4, .void, [], 0, by decide⟩
example : (construct 4 : Except Err (State Nat)) = .ok (init 4) := rfl

/-- Hypotheses of `blocked_means_served`: two consumers blocked, one value pushed, only one of them released. -/
example : ∃ (s : State Nat) (tr : List (Obs Nat)), Reach step (init 4) s tr ∧ Untimed tr ∧ NoThrow tr ∧ s.ring.Rep [7] ∧
    Blocked s 3 .cons := by
  refine ⟨_, [.called 2 (.pop none), .blocks 2, .called 3 (.pop none), .blocks 3, .called 1 (.push 7 none),
      .ret 1 (.push 7 none) .pushed [2] 0],
    reach_of_exec (es := [.call 2 (.pop none), .run 2, .call 3 (.pop none), .run 3, .call 1 (.push 7 none), .run 1]) rfl,
    ?_, by simp [NoThrow], ?_, ⟨.pop none, 1, rfl, rfl, rfl⟩⟩
  · intro f op hm; simp at hm; rcases hm with ⟨-, rfl⟩ | ⟨-, rfl⟩ | ⟨-, rfl⟩ <;> rfl
  · refine ⟨by decide, by decide, rfl, ?_⟩
    intro i hi; have : i = 0 := by simpa using hi
    subst this; rfl

/-- Hypotheses of `throwing_value_partial`: a pop of a channel holding 7 and 8 throws, the next one gets 7. -/
example : ∃ (s s' : State Nat) (tr : List (Obs Nat)), Reach step (init 4) s tr ∧ s.ring.Rep [7, 8] ∧
    step s (.fail 2) = some (s', [.ret 2 (.pop none) .failed [] 0]) ∧
    ∃ s'', Reach step s' s'' [.called 2 (.pop none), .ret 2 (.pop none) (.popped (some 7)) [] 0] := by
  refine ⟨_, _, _, reach_of_exec (es := [.call 1 (.push 7 none), .run 1, .call 1 (.push 8 none), .run 1,
    .call 2 (.pop none)]) rfl, ?_, rfl, _, reach_of_exec (es := [.call 2 (.pop none), .run 2]) rfl⟩
  refine ⟨by decide, by decide, rfl, ?_⟩
  intro i hi
  have : i = 0 ∨ i = 1 := by simp at hi; omega
  rcases this with rfl | rfl <;> rfl

/-- The specification rejects reordering, losing a value, exceeding the capacity and a premature timeout. -/
example : (Spec.init (V := Nat)).run 4 [.called 1 (.push 1 none), .ret 1 (.push 1 none) .pushed [] 0,
    .called 1 (.push 2 none), .ret 1 (.push 2 none) .pushed [] 0, .called 1 (.pop none),
    .ret 1 (.pop none) (.popped (some 2)) [] 0] = none := rfl
example : (Spec.init (V := Nat)).run 2 [.called 1 (.push 1 none), .ret 1 (.push 1 none) .pushed [] 0,
    .called 1 (.push 2 none), .ret 1 (.push 2 none) .pushed [] 0] = none := rfl
example : (Spec.init (V := Nat)).run 2 [.called 1 (.pop (some 5)), .blocks 1, .ret 1 (.pop (some 5)) .timeout [] 4] = none := rfl

end Verif.BufCh
