import Verif.BufLive

/-!
# Properties C109 and C110: calls on a buffered channel return

`Run` and `Run.Fair` (whoever can go on goes on) are in `Verif/Fair.lean`. A call is seen as `called f op` and its return as
`ret f op result …`.
-/

namespace Verif.Props.BufLive

open Verif Verif.BufCh

variable {V : Type} [DecidableEq V] {cap : Nat} {r : Run (step (V := V)) (init cap)}

/-- A call that was just made is under way. -/
theorem in_after {i : Nat} {f : Fid} {op : Op V} (h : Obs.called f op ∈ r.ob i) : opOf ((r.st (i + 1)).pc f) = some op := by
  have hm := move (reach_inv (r.reach i)) (r.next i)
  generalize r.ev i = e at hm
  cases hm with
  | call g op' hp h1 ho hr =>
    rw [ho] at h; simp at h; obtain ⟨rfl, rfl⟩ := h
    rw [h1]; simp [opOf]
  | ends _ g op' hp h1 x wk ho he _ => rw [ho] at h; simp at h
  | blocks g op' ep hp h1 ho hr => rw [ho] at h; simp at h
  | wakes g op' ep hp p h1 hpp _ ho hw hr => rw [ho] at h; simp at h
  | timer g op' ep hp hd h1 ho _ _ =>
    have := (ho f).1
    simp only [callsOf, List.countP_eq_zero] at this
    exact absurd (this _ h) (by simp [Obs.isCall])
  | other _ h1 ho hr he => rw [ho] at h; simp at h

/-- **C109.** After `close()` every call returns: those that were blocked, and those made later. Deadlines, exceptions of values and
calls that never end make no difference. -/
theorem after_close_returns (hc : 2 ≤ cap) (hf : r.Fair Event.run) {i N : Nat} {f : Fid} {op : Op V} (hcall : Obs.called f op ∈ r.ob i)
    (hcl : closedIn (r.tr N)) : ∃ j, i < j ∧ ∃ x wk t, Obs.ret f op x wk t ∈ r.ob j := by
  refine Classical.byContradiction fun hno => ?_
  have hin : ∀ j, i + 1 ≤ j → opOf ((r.st j).pc f) = some op := by
    intro j hj
    obtain ⟨d, rfl⟩ := Nat.le.dest hj
    clear hj
    induction d with
    | zero => exact in_after hcall
    | succ d ih =>
      rcases in_call (reach_inv (r.reach (i + 1 + d))) (r.next (i + 1 + d)) ih with h | h
      · exact h
      · exact absurd ⟨i + 1 + d, by omega, h⟩ hno
  have hcl' : ∀ j, N ≤ j → closedIn (r.tr j) := by
    intro j hj
    obtain ⟨t, ht⟩ := r.tr_le hj
    obtain ⟨g, x, wk, t', h⟩ := hcl
    exact ⟨g, x, wk, t', by rw [ht]; simp [h]⟩
  obtain ⟨j, hj, h⟩ := enabled_returns hf (N := max (i + 1) N) (hin _ (by omega)) (fun j hj hij _ => by
    have hR := r.reach j
    obtain ⟨l, hl, _⟩ := holds_at_most hc hR
    exact ⟨closed_nobody_blocked hc hR (hcl' j (by omega)) (by intro h; simp [h, opOf] at hij),
      (after_close hc hR (hcl' j (by omega)) (r.next j) hl).1 f⟩)
  exact hno ⟨j, by omega, h⟩

/-- **C109.** Calls that cannot block (`try_push`, `try_pop`, `close`, `is_closed`) return, whatever the other fibers do. -/
theorem nonblocking_returns (hf : r.Fair Event.run) {i : Nat} {f : Fid} {op : Op V} (hcall : Obs.called f op ∈ r.ob i) (hop : op.side = none) :
    ∃ j, i < j ∧ ∃ x wk t, Obs.ret f op x wk t ∈ r.ob j := by
  obtain ⟨j, hj, h⟩ := enabled_returns hf (N := i + 1) (in_after hcall) (fun j hj hij _ => by
    have hI := reach_inv (r.reach j)
    have hent : (r.st j).pc f = .entry op := by
      cases hp : (r.st j).pc f with
      | idle => simp [hp, opOf] at hij
      | entry op' => simp only [hp, opOf, Option.some.injEq] at hij; rw [hij]
      | waiting op' ep =>
        obtain ⟨k, hk⟩ := hI.sd f op' ep (.inl hp)
        simp only [hp, opOf, Option.some.injEq] at hij; rw [hij, hop] at hk; cases hk
      | unlink op' ep =>
        obtain ⟨k, hk⟩ := hI.sd f op' ep (.inr hp)
        simp only [hp, opOf, Option.some.injEq] at hij; rw [hij, hop] at hk; cases hk
    refine ⟨by simp [step, run, hent], fun hb => ?_⟩
    have hm := move hI (r.next j)
    generalize hev : r.ev j = e at hm
    cases hm with
    | call g op' hp h1 ho hr => rw [ho] at hb; simp at hb
    | ends _ g op' hp h1 x wk ho he _ => rw [ho] at hb; simp at hb
    | blocks g op' ep hp h1 ho hr =>
      rw [ho] at hb; simp at hb; subst hb
      rw [hent] at hp; cases hp
      have hn := r.next j
      rw [hev] at hn
      simp only [step, run, hent, Option.some.injEq] at hn
      by_cases hcs : cs (r.st j) op = .block
      · obtain ⟨k, hk⟩ := cs_block hcs; rw [hop] at hk; cases hk
      · obtain ⟨_, x, wk, h2⟩ := apply_ends (r.st j) f op hcs
        rw [hn, ho] at h2; simp at h2
    | wakes g op' ep hp p h1 hpp _ ho hw hr => rw [ho] at hb; simp at hb
    | timer g op' ep hp hd h1 ho _ _ =>
      have hn := r.next j
      rw [hev] at hn
      simp only [step, hp] at hn
      split at hn
      · split at hn
        · simp only [Option.some.injEq, Prod.mk.injEq] at hn
          rw [← hn.2] at hb
          split at hb <;> simp at hb
        · cases hn
      · cases hn
    | other _ h1 ho hr he => rw [ho] at hb; simp at hb)
  exact ⟨j, by omega, h⟩

/-- **C109.** A call with a deadline returns once the deadline has passed, whatever the other fibers do, if the scheduler looks after its
timers. -/
theorem timed_returns (hf : r.Fair Event.run) (ht : r.Fair Event.timer) {i N d : Nat} {f : Fid} {op : Op V} (hcall : Obs.called f op ∈ r.ob i)
    (hd : op.dl = some d) (hnow : d ≤ (r.st N).now) : ∃ j, i < j ∧ ∃ x wk t, Obs.ret f op x wk t ∈ r.ob j := by
  refine Classical.byContradiction fun hno => ?_
  have hin : ∀ j, i + 1 ≤ j → opOf ((r.st j).pc f) = some op := by
    intro j hj
    obtain ⟨d, rfl⟩ := Nat.le.dest hj
    clear hj
    induction d with
    | zero => exact in_after hcall
    | succ d ih =>
      rcases in_call (reach_inv (r.reach (i + 1 + d))) (r.next (i + 1 + d)) ih with h | h
      · exact h
      · exact absurd ⟨i + 1 + d, by omega, h⟩ hno
  have hnow' : d ≤ (r.st (N + (i + 1))).now := by
    have : ∀ e, (r.st N).now ≤ (r.st (N + e)).now := by
      intro e
      induction e with
      | zero => exact Nat.le_refl _
      | succ e ih => exact Nat.le_trans ih (now_le (r.next (N + e)))
    exact Nat.le_trans hnow (this _)
  obtain ⟨j, hj, h⟩ := late_returns hf ht (N := N + (i + 1)) (hin _ (by omega)) hd hnow'
  exact hno ⟨j, by omega, h⟩

/-- **C109.** Only calls that may block and have no deadline are made, no value throws, and at some time the last call is made. In the end
exactly as many have succeeded as can: of `P` pushes and `C` pops, `min P C` pops and `min P (C + (cap - 1))` pushes. -/
theorem balance {L : List Fid} (hc : 2 ≤ cap) (hL : L.Nodup) (hf : r.Fair Event.run)
    (ho : ∀ i f op, Obs.called f op ∈ r.ob i → f ∈ L ∧ op.dl = none ∧ op.side ≠ none) (hnt : ∀ i f op w t, Obs.ret f op .failed w t ∉ r.ob i)
    {i : Nat} (hend : ∀ j, i ≤ j → ∀ f op, Obs.called f op ∉ r.ob j) :
    ∃ M, i ≤ M ∧ ∀ j, M ≤ j → (poppedVals (r.tr j)).length = min (sideCalls .prod (r.tr j)) (sideCalls .cons (r.tr j)) ∧
      (pushedVals (r.tr j)).length = min (sideCalls .prod (r.tr j)) (sideCalls .cons (r.tr j) + (cap - 1)) := by
  have hO : Only L r := fun i f op h => ⟨(ho i f op h).1, (ho i f op h).2.1⟩
  have hB : ∀ j, B L (r.st j) (r.tr j) := by
    intro j
    induction j with
    | zero => rw [r.start]; exact B_init
    | succ j ih =>
      refine B_step hL (reach_inv (r.reach j)) (J_run hO j) ih (r.next j) (ho j) (fun f op w t => hnt j f op w t) (fun f op w t hx => ?_)
      obtain ⟨_, _, _, h⟩ := exactly_once_fifo hc (r.reach (j + 1))
      exact h f op w t (by simp [Run.tr, hx])
  have hsame : ∀ j, i ≤ j → ∀ f, callsOf f (r.tr j) = callsOf f (r.tr i) := by
    intro j hj f
    obtain ⟨d, rfl⟩ := Nat.le.dest hj
    clear hj
    induction d with
    | zero => rfl
    | succ d ih =>
      have : callsOf f (r.ob (i + d)) = 0 := by
        simp only [callsOf, List.countP_eq_zero]
        intro o ho' h
        cases o with
        | called g op => exact hend (i + d) (by omega) g op ho'
        | _ => simp [Obs.isCall] at h
      rw [← Nat.add_assoc]
      simp only [Run.tr, BufCh.callsOf_append, this, ih]
      omega
  have hbound : ∀ (L : List Fid) (f : Fid), f ∈ L → callsOf f (r.tr i) ≤ lsum L (fun f => callsOf f (r.tr i)) := by
    intro L f hf
    induction L with
    | nil => cases hf
    | cons x L ih =>
      simp only [lsum_cons]
      rcases List.mem_cons.1 hf with rfl | hf
      · omega
      · have := ih hf; omega
  obtain ⟨M, hM, hob, hq⟩ := settle hL hO hf (k := lsum L (fun f => callsOf f (r.tr i))) (N := i)
    (fun j hj f hf => by rw [hsame j hj f]; exact hbound L f hf)
  have htr : ∀ j, M ≤ j → r.tr j = r.tr M := by
    intro j hj
    obtain ⟨d, rfl⟩ := Nat.le.dest hj
    clear hj
    induction d with
    | zero => rfl
    | succ d ih => rw [← Nat.add_assoc]; simp only [Run.tr, hob (M + d) (by omega), List.append_nil, ih]
  refine ⟨M, hM, fun j hj => ?_⟩
  rw [htr j hj]
  obtain ⟨l, hl, hlen⟩ := holds_at_most hc (r.reach M)
  obtain ⟨l', hl', hfifo, _⟩ := exactly_once_fifo hc (r.reach M)
  have := rep_unique hl hl'
  subst this
  have hmem : ∀ j o, o ∈ r.tr j → ∃ m, o ∈ r.ob m := by
    intro j
    induction j with
    | zero => intro o ho; simp [Run.tr] at ho
    | succ j ih =>
      intro o ho
      rcases List.mem_append.1 ho with h | h
      · exact ih o h
      · exact ⟨j, h⟩
  have hqb := fun f => quiescent_blocked hc (r.reach M)
    (fun f op h => by obtain ⟨m, hm⟩ := hmem M _ h; exact (ho m f op hm).2.1)
    (fun f op w t h => by obtain ⟨m, hm⟩ := hmem M _ h; exact hnt m f op w t hm) hq hl (f := f)
  have hpos : ∀ (i : Side), 0 < lsum L (fun f => inSide i ((r.st M).pc f)) → ∃ f, Blocked (r.st M) f i := by
    intro i
    have : ∀ L : List Fid, 0 < lsum L (fun f => inSide i ((r.st M).pc f)) → ∃ f, inSide i ((r.st M).pc f) ≠ 0 := by
      intro L
      induction L with
      | nil => simp
      | cons x L ih =>
        intro h
        by_cases hx : inSide i ((r.st M).pc x) = 0
        · simp only [lsum_cons, hx, Nat.zero_add] at h; exact ih h
        · exact ⟨x, hx⟩
    intro h
    obtain ⟨f, hf⟩ := this L h
    refine ⟨f, ?_⟩
    rcases stuck (reach_inv (r.reach M)) hq f with h1 | ⟨k, op, ep, h1, h2, h3⟩
    · simp [h1, inSide, opOf] at hf
    · simp only [h1, inSide, opOf, Option.bind_some, h2] at hf
      have : k = i := by
        refine Classical.byContradiction fun hne => hf (if_neg ?_)
        intro he; exact hne (Option.some.inj he)
      subst this
      exact ⟨op, ep, h1, h2, h3⟩
  have c1 := (hB M).cnt .prod
  have c2 := (hB M).cnt .cons
  simp only [done] at c1 c2
  have c3 : (pushedVals (r.tr M)).length = (poppedVals (r.tr M)).length + l.length := by rw [hfifo]; simp
  by_cases h1 : 0 < lsum L (fun f => inSide .prod ((r.st M).pc f))
  · obtain ⟨f, hf⟩ := hpos _ h1
    have h2 := ((hqb f).1 hf).2
    by_cases h3 : 0 < lsum L (fun f => inSide .cons ((r.st M).pc f))
    · obtain ⟨g, hg⟩ := hpos _ h3
      have h4 := ((hqb g).2 hg).2
      rw [h4] at h2; simp at h2; omega
    · omega
  · by_cases h3 : 0 < lsum L (fun f => inSide .cons ((r.st M).pc f))
    · obtain ⟨g, hg⟩ := hpos _ h3
      have h4 := ((hqb g).2 hg).2
      rw [h4] at c3; simp only [List.length_nil] at c3
      omega
    · omega

/-! ## One consumer, one producer (C110) -/

/-- Whoever is in a call has made it. -/
theorem was_called (j : Nat) : ∀ f op, opOf ((r.st j).pc f) = some op → Obs.called f op ∈ r.tr j := by
  induction j with
  | zero => intro f op h; rw [r.start] at h; simp [init, opOf] at h
  | succ j ih =>
    intro f op h
    have hm := move (reach_inv (r.reach j)) (r.next j)
    simp only [Run.tr, List.mem_append]
    generalize r.ev j = e at hm
    cases hm with
    | call g op' hp h1 ho hr =>
      rw [h1] at h; simp only [upd_apply] at h; split at h
      · simp only [opOf, Option.some.injEq] at h; subst_vars; right; rw [ho]; simp
      · exact .inl (ih f op h)
    | ends _ g op' hp h1 x wk ho he _ =>
      rw [h1] at h; simp only [upd_apply] at h; split at h
      · simp [opOf] at h
      · exact .inl (ih f op h)
    | blocks g op' ep hp h1 ho hr =>
      rw [h1] at h; simp only [upd_apply] at h; split at h
      · subst_vars; exact .inl (ih _ op (by rw [hp]; exact h))
      · exact .inl (ih f op h)
    | wakes g op' ep hp p h1 hpp _ ho hw hr =>
      rw [h1] at h; simp only [upd_apply] at h; split at h
      · rename_i hfg; subst hfg
        refine .inl (ih f op ?_)
        rw [hp]; rcases hpp with hpp | hpp
        · rw [hpp] at h; exact h
        · rw [hpp.1] at h; exact h
      · exact .inl (ih f op h)
    | timer g op' ep hp hd h1 ho _ _ => rw [h1] at h; exact .inl (ih f op h)
    | other _ h1 ho hr he => rw [h1] at h; exact .inl (ih f op h)

/-- A return is one of the call its fiber is in, and the kind of call fits the result. -/
theorem ret_fits {s s' : State V} {o : List (Obs V)} {e : Event V} {f : Fid} {op : Op V} {x : Res V} {w : List Fid} {t : Nat}
    (hs : step s e = some (s', o)) (h : Obs.ret f op x w t ∈ o) :
    opOf (s.pc f) = some op ∧ (∀ v, x = .popped v → op.isPop) ∧ (x = .pushed → op.value?.isSome) := by
  cases e with
  | call g op' => simp only [step] at hs; split at hs <;> simp at hs; obtain ⟨-, rfl⟩ := hs; simp at h
  | run g =>
    simp only [step, run] at hs
    split at hs
    · cases hs
    · rename_i op' hp
      simp only [Option.some.injEq] at hs
      have key : ∀ y, y = cs s op' → Obs.ret f op x w t ∈ (apply s g op' y).2 → f = g ∧ op = op' ∧ (∀ v, x = .popped v → op.isPop) ∧ (x = .pushed → op.value?.isSome) := by
        intro y hy h
        cases y with
        | ret z =>
          simp [apply] at h
          obtain ⟨rfl, rfl, rfl, rfl, rfl⟩ := h
          refine ⟨rfl, rfl, ?_, ?_⟩ <;> cases op <;> simp only [cs, pushCS, tryPushCS, popCS, valuePopCS, tryPopCS, closeCS] at hy <;> grind
        | put v =>
          simp [apply] at h
          obtain ⟨rfl, rfl, rfl, -, -⟩ := h
          refine ⟨rfl, rfl, by simp, fun _ => ?_⟩
          cases op <;> simp only [cs, pushCS, tryPushCS, popCS, valuePopCS, tryPopCS, closeCS] at hy <;> grind [Op.value?]
        | take =>
          simp [apply] at h
          obtain ⟨rfl, rfl, rfl, -, -⟩ := h
          refine ⟨rfl, rfl, fun _ _ => ?_, by simp⟩
          cases op <;> simp only [cs, pushCS, tryPushCS, popCS, valuePopCS, tryPopCS, closeCS] at hy <;> grind [Op.isPop]
        | block => simp only [apply] at h; split at h <;> simp at h
        | close =>
          simp [apply] at h
          obtain ⟨rfl, rfl, rfl, -, -⟩ := h
          exact ⟨rfl, rfl, by simp, by simp⟩
      obtain ⟨rfl, rfl, h1, h2⟩ := key _ rfl (by rw [hs]; exact h)
      exact ⟨by rw [hp]; rfl, h1, h2⟩
    · split at hs
      · split at hs
        · simp at hs; rw [hs.2] at h; simp at h
        · split at hs <;> simp at hs <;> rw [hs.2] at h <;> simp at h
      · cases hs
    · rename_i op' ep hp
      split at hs
      · cases hs
      · simp at hs; rw [← hs.2] at h; simp at h
        obtain ⟨rfl, rfl, rfl, -, -⟩ := h
        exact ⟨by rw [hp]; rfl, by simp, by simp⟩
  | fail g =>
    simp only [step, runFail] at hs
    split at hs
    · rename_i op' hp
      split at hs <;> simp at hs <;> rw [← hs.2] at h <;> simp at h
      all_goals
        obtain ⟨rfl, rfl, rfl, -, -⟩ := h
        exact ⟨by rw [hp]; rfl, by simp, by simp⟩
    · cases hs
  | timer g =>
    simp only [step] at hs
    split at hs
    · split at hs
      · split at hs
        · simp only [Option.some.injEq, Prod.mk.injEq] at hs
          rw [← hs.2] at h
          split at h <;> simp at h
        · cases hs
      · cases hs
    · cases hs
  | tick n => simp [step] at hs; rw [hs.2] at h; simp at h
  | elsewhere g n => simp only [step] at hs; split at hs <;> simp at hs; rw [hs.2] at h; simp at h

/-- A call suspends its fiber only if its critical section said so. -/
theorem blocks_cs {s s' : State V} {o : List (Obs V)} {e : Event V} {f : Fid} (hi : Inv s) (hs : step s e = some (s', o)) (h : Obs.blocks f ∈ o) :
    ∃ op, s.pc f = .entry op ∧ cs s op = .block := by
  have hm := move hi hs
  cases hm with
  | call g op' hp h1 ho hr => rw [ho] at h; simp at h
  | ends _ g op' hp h1 x wk ho he _ => rw [ho] at h; simp at h
  | blocks g op' ep hp h1 ho hr =>
    rw [ho] at h; simp at h; subst h
    refine ⟨op', hp, Classical.byContradiction fun hcs => ?_⟩
    simp only [step, run, hp, Option.some.injEq] at hs
    obtain ⟨_, x, wk, h2⟩ := apply_ends s f op' hcs
    rw [hs, ho] at h2; simp at h2
  | wakes g op' ep hp p h1 hpp _ ho hw hr => rw [ho] at h; simp at h
  | timer g op' ep hp hd h1 ho _ _ =>
    simp only [step, hp] at hs
    split at hs
    · split at hs
      · simp only [Option.some.injEq, Prod.mk.injEq] at hs
        rw [← hs.2] at h
        split at h <;> simp at h
      · cases hs
    · cases hs
  | other _ h1 ho hr he => rw [ho] at h; simp at h

/-- If `f` is the only fiber that makes blocking calls of its side, and from `N` on there is room for it until it returns, then it returns. -/
theorem alone (hc : 2 ≤ cap) (hf : r.Fair Event.run) (hu : ∀ i g op, Obs.called g op ∈ r.ob i → op.dl = none)
    (hnt : ∀ i g op w t, Obs.ret g op .failed w t ∉ r.ob i) {i : Side} {f : Fid} {op : Op V} (hside : op.side = some i)
    (honly : ∀ k g op', Obs.called g op' ∈ r.ob k → op'.side = some i → g = f) {N : Nat} (h0 : opOf ((r.st N).pc f) = some op)
    (hroom : ∀ j, N ≤ j → opOf ((r.st j).pc f) = some op → (∀ k, N ≤ k → k < j → ∀ x w t, Obs.ret f op x w t ∉ r.ob k) →
      ∃ l, (r.st j).ring.Rep l ∧ 0 < room cap l i) :
    ∃ j, N ≤ j ∧ ∃ x wk t, Obs.ret f op x wk t ∈ r.ob j := by
  have hmem : ∀ j o, o ∈ r.tr j → ∃ m, o ∈ r.ob m := by
    intro j
    induction j with
    | zero => intro o ho; simp [Run.tr] at ho
    | succ j ih =>
      intro o ho
      rcases List.mem_append.1 ho with h | h
      · exact ih o h
      · exact ⟨j, h⟩
  refine enabled_returns hf h0 fun j hj hij hnr => ?_
  have hI := reach_inv (r.reach j)
  obtain ⟨l, hl, hl0⟩ := hroom j hj hij hnr
  constructor
  · cases hp : (r.st j).pc f with
    | idle => simp [hp, opOf] at hij
    | entry op' => simp [step, run, hp]
    | unlink op' ep =>
      obtain ⟨k, hk⟩ := hI.sd f op' ep (.inr hp)
      simp [step, run, hp, hk]
    | waiting op' ep =>
      simp only [hp, opOf, Option.some.injEq] at hij
      subst hij
      by_cases hr : (r.st j).c.ready f = true
      · simp only [step, run, hp, hr, if_true]
        split
        · simp
        · split <;> simp
      · obtain ⟨sp, h1, h2⟩ := refine_sim hc (r.reach j)
        obtain ⟨_, gs, _, hlen, hgs⟩ := blocked_means_served_partial hc (r.reach j) h1
          (untimed_run _ _ _ (fun g o h => by obtain ⟨m, hm⟩ := hmem j _ h; exact hu m g o hm)
            (fun g o w t h => by obtain ⟨m, hm⟩ := hmem j _ h; exact hnt m g o w t hm) h1 (by simp [Spec.init]) rfl) hl
          (f := f) (i := i) ⟨_, ep, hp, hside, by simpa using hr⟩
        cases gs with
        | nil => simp at hlen; omega
        | cons g gs =>
          obtain ⟨⟨o, ho, hos⟩, hen⟩ := hgs g (by simp)
          obtain ⟨m, hm⟩ := hmem j _ (was_called j g o (by rw [← ho, h2.call]))
          rw [honly m g o hm hos] at hen
          exact hen
  · intro hb
    obtain ⟨op', hp, hcs⟩ := blocks_cs hI (r.next j) hb
    rw [hp] at hij; simp only [opOf, Option.some.injEq] at hij; subst hij
    have e1 := Ring.isEmpty_iff hl
    have e2 := Ring.isFull_iff hl
    have hcap : (r.st j).ring.cap = cap := by
      obtain ⟨sp, h1, h2⟩ := refine_sim hc (r.reach j)
      exact h2.cap
    cases op' <;> simp only [Op.side, Option.some.injEq, reduceCtorEq] at hside <;> subst hside <;>
      simp only [cs, pushCS, popCS, valuePopCS, room] at hcs hl0
    · split at hcs
      · cases hcs
      · split at hcs
        · have := e2.1 (by assumption); omega
        · cases hcs
    all_goals
      split at hcs
      · have := e1.1 (by assumption); subst this; simp at hl0
      · cases hcs

/-- **C110, what holds.** If only one fiber takes values out, its `pop()` returns as soon as there is a value for it. No deadlines, and no
value throws.

Missing for C110: several fibers that take values; there the property is false (`starves`). -/
theorem sole_consumer_partial (hc : 2 ≤ cap) (hf : r.Fair Event.run) (hu : ∀ i g op, Obs.called g op ∈ r.ob i → op.dl = none)
    (hnt : ∀ i g op w t, Obs.ret g op .failed w t ∉ r.ob i) {f : Fid} (honly : ∀ i g op, Obs.called g op ∈ r.ob i → op.isPop → g = f)
    {i : Nat} {op : Op V} (hcall : Obs.called f op ∈ r.ob i) (hop : op.side = some .cons) {N : Nat} (hN : i < N)
    (hval : (poppedVals (r.tr N)).length < (pushedVals (r.tr N)).length) : ∃ j, i < j ∧ ∃ x wk t, Obs.ret f op x wk t ∈ r.ob j := by
  refine Classical.byContradiction fun hno => ?_
  have hin : ∀ j, i + 1 ≤ j → opOf ((r.st j).pc f) = some op := by
    intro j hj
    obtain ⟨d, rfl⟩ := Nat.le.dest hj
    clear hj
    induction d with
    | zero => exact in_after hcall
    | succ d ih =>
      rcases in_call (reach_inv (r.reach (i + 1 + d))) (r.next (i + 1 + d)) ih with h | h
      · exact h
      · exact absurd ⟨i + 1 + d, by omega, h⟩ hno
  have hside : ∀ op' : Op V, op'.side = some .cons → op'.isPop = true := by intro op' h; cases op' <;> simp_all [Op.side, Op.isPop]
  have hmem : ∀ j o, o ∈ r.tr j → ∃ m, o ∈ r.ob m := by
    intro j
    induction j with
    | zero => intro o ho; simp [Run.tr] at ho
    | succ j ih =>
      intro o ho
      rcases List.mem_append.1 ho with h | h
      · exact ih o h
      · exact ⟨j, h⟩
  have hkeep : ∀ d, (poppedVals (r.tr (N + d))).length < (pushedVals (r.tr (N + d))).length := by
    intro d
    induction d with
    | zero => exact hval
    | succ d ih =>
      rw [← Nat.add_assoc]
      simp only [Run.tr, pushedVals_append, poppedVals_append, List.length_append]
      have : poppedVals (r.ob (N + d)) = [] := by
        refine Classical.byContradiction fun hne => ?_
        have hex : ∀ t : List (Obs V), poppedVals t ≠ [] → ∃ g o v w t', Obs.ret g o (.popped (some v)) w t' ∈ t := by
          intro t
          induction t with
          | nil => simp [poppedVals]
          | cons a t ih =>
            intro h
            unfold poppedVals at h
            split at h
            · cases ‹_ = []›
            · injection ‹_ :: _ = _ :: _› with h1 h2
              subst h1; exact ⟨_, _, _, _, _, List.mem_cons_self⟩
            · injection ‹_ :: _ = _ :: _› with h1 h2
              subst h2
              obtain ⟨g, o, v, w, t', h⟩ := ih h
              exact ⟨g, o, v, w, t', List.mem_cons_of_mem _ h⟩
        obtain ⟨g, o, v, w, t', hr⟩ := hex _ hne
        obtain ⟨h1, h2, -⟩ := ret_fits (r.next _) hr
        obtain ⟨m, hm⟩ := hmem _ _ (was_called _ g o h1)
        have hg := honly m g o hm (h2 _ rfl)
        subst hg
        rw [hin _ (by omega)] at h1
        cases h1
        exact hno ⟨N + d, by omega, _, _, _, hr⟩
      rw [this]; simp only [List.length_nil]; omega
  obtain ⟨j, hj, h⟩ := alone hc hf hu hnt hop (fun k g o h hs => honly k g o h (hside o hs)) (N := N) (hin N hN) (fun j hj _ _ => by
    obtain ⟨l, hl, hfifo, _⟩ := exactly_once_fifo hc (r.reach j)
    refine ⟨l, hl, ?_⟩
    obtain ⟨d, rfl⟩ := Nat.le.dest hj
    have := hkeep d
    rw [hfifo] at this
    simp only [List.length_append] at this
    simp only [room]; omega)
  exact hno ⟨j, by omega, h⟩

/-- **C110, what holds.** If only one fiber puts values in, its `push()` returns as soon as there is room for it.

Missing for C110: several fibers that put values in. -/
theorem sole_producer_partial (hc : 2 ≤ cap) (hf : r.Fair Event.run) (hu : ∀ i g op, Obs.called g op ∈ r.ob i → op.dl = none)
    (hnt : ∀ i g op w t, Obs.ret g op .failed w t ∉ r.ob i) {f : Fid} (honly : ∀ i g op, Obs.called g op ∈ r.ob i → op.value?.isSome → g = f)
    {i : Nat} {op : Op V} (hcall : Obs.called f op ∈ r.ob i) (hop : op.side = some .prod) {N : Nat} (hN : i < N)
    (hval : (pushedVals (r.tr N)).length < (poppedVals (r.tr N)).length + (cap - 1)) : ∃ j, i < j ∧ ∃ x wk t, Obs.ret f op x wk t ∈ r.ob j := by
  refine Classical.byContradiction fun hno => ?_
  have hin : ∀ j, i + 1 ≤ j → opOf ((r.st j).pc f) = some op := by
    intro j hj
    obtain ⟨d, rfl⟩ := Nat.le.dest hj
    clear hj
    induction d with
    | zero => exact in_after hcall
    | succ d ih =>
      rcases in_call (reach_inv (r.reach (i + 1 + d))) (r.next (i + 1 + d)) ih with h | h
      · exact h
      · exact absurd ⟨i + 1 + d, by omega, h⟩ hno
  have hside : ∀ op' : Op V, op'.side = some .prod → op'.value?.isSome = true := by intro op' h; cases op' <;> simp_all [Op.side, Op.value?]
  have hmem : ∀ j o, o ∈ r.tr j → ∃ m, o ∈ r.ob m := by
    intro j
    induction j with
    | zero => intro o ho; simp [Run.tr] at ho
    | succ j ih =>
      intro o ho
      rcases List.mem_append.1 ho with h | h
      · exact ih o h
      · exact ⟨j, h⟩
  have hkeep : ∀ d, (pushedVals (r.tr (N + d))).length < (poppedVals (r.tr (N + d))).length + (cap - 1) := by
    intro d
    induction d with
    | zero => exact hval
    | succ d ih =>
      rw [← Nat.add_assoc]
      simp only [Run.tr, pushedVals_append, poppedVals_append, List.length_append]
      have : pushedVals (r.ob (N + d)) = [] := by
        refine Classical.byContradiction fun hne => ?_
        have hex : ∀ t : List (Obs V), pushedVals t ≠ [] → ∃ g o w t', Obs.ret g o .pushed w t' ∈ t := by
          intro t
          induction t with
          | nil => simp [pushedVals]
          | cons a t ih =>
            intro h
            unfold pushedVals at h
            split at h
            · cases ‹_ = []›
            · injection ‹_ :: _ = _ :: _› with h1 h2
              subst h1; exact ⟨_, _, _, _, List.mem_cons_self⟩
            · injection ‹_ :: _ = _ :: _› with h1 h2
              subst h1; exact ⟨_, _, _, _, List.mem_cons_self⟩
            · injection ‹_ :: _ = _ :: _› with h1 h2
              subst h2
              obtain ⟨g, o, w, t', h⟩ := ih h
              exact ⟨g, o, w, t', List.mem_cons_of_mem _ h⟩
        obtain ⟨g, o, w, t', hr⟩ := hex _ hne
        obtain ⟨h1, -, h2⟩ := ret_fits (r.next _) hr
        obtain ⟨m, hm⟩ := hmem _ _ (was_called _ g o h1)
        have hg := honly m g o hm (h2 rfl)
        subst hg
        rw [hin _ (by omega)] at h1
        cases h1
        exact hno ⟨N + d, by omega, _, _, _, hr⟩
      rw [this]; simp only [List.length_nil]; omega
  obtain ⟨j, hj, h⟩ := alone hc hf hu hnt hop (fun k g o h hs => honly k g o h (hside o hs)) (N := N) (hin N hN) (fun j hj _ _ => by
    obtain ⟨l, hl, hfifo, _⟩ := exactly_once_fifo hc (r.reach j)
    refine ⟨l, hl, ?_⟩
    obtain ⟨d, rfl⟩ := Nat.le.dest hj
    have := hkeep d
    rw [hfifo] at this
    simp only [List.length_append] at this
    simp only [room]; omega)
  exact hno ⟨j, by omega, h⟩

/-! ## Several consumers -/

/-- A channel that holds at most one value. Fiber 2 sleeps in `pop()`; `n` values have gone by. -/
def asleep (n : Nat) : State Nat where
  ring := { slots := fun _ => none, pidx := n % 2, cidx := n % 2, cap := 2 }
  closed := false
  q := updQ (fun _ => []) .cons [⟨2, 2 * n + 1⟩]
  c := { epoch := upd (fun _ => 0) 2 (2 * n + 1), ready := fun _ => false }
  pc := upd (fun _ => .idle) 2 (.waiting (.pop none) (2 * n + 1))
  now := 0

/-- C110 fails: fiber 1 pushes values for ever and fiber 3 takes them. Under a fair schedule the `pop()` of fiber 2 never returns: each time
it is woken, fiber 3 has taken the value before it runs, and it waits again. -/
theorem starves : ∃ r : Run (step (V := Nat)) (init 2), r.Fair Event.run ∧ (∃ i, Obs.called 2 (.pop none) ∈ r.ob i) ∧
    (∀ k, ∃ i, k ≤ (pushedVals (r.tr i)).length ∧ k ≤ retsOf 3 (r.tr i)) ∧ ∀ i, retsOf 2 (r.tr i) = 0 := by
  have hcyc : ∀ n, exec step (asleep n) [.call 1 (.push 7 none), .run 1, .call 3 (.pop none), .run 3, .run 2, .run 2] =
      some (asleep (n + 1), [.called 1 (.push 7 none), .ret 1 (.push 7 none) .pushed [2] 0, .called 3 (.pop none), .ret 3 (.pop none) (.popped (some 7)) [] 0, .blocks 2]) := by
    intro n
    have h1 : ¬ n % 2 = (n + 1) % 2 := by omega
    have h2 : (n % 2 + 1) % 2 = (n + 1) % 2 := by omega
    simp [exec, step, run, asleep, cs, pushCS, popCS, apply, Ring.isFull, Ring.isEmpty, Ring.put, Ring.take, notifyOne, wake, Op.dl, Op.side,
      consumeReady, enqueue, createWaker, updQ, h1, h2]
    have h3 : 2 * n + 1 + 1 + 1 = 2 * (n + 1) + 1 := by omega
    rw [h3]
    refine ⟨?_, ?_, ⟨?_, ?_⟩, ?_⟩
    · funext k; simp only [upd_apply]; split <;> rfl
    · funext k; cases k <;> simp [updQ]
    · funext k; simp only [upd_apply]; split <;> rfl
    · funext k; simp only [upd_apply]; split <;> rfl
    · funext k; simp only [upd_apply]; split
      · rfl
      · split
        · rfl
        · split <;> rfl
  obtain ⟨r, h1, h2, h3, h4, h5⟩ := Run.lasso (step := step (V := Nat)) (init := init 2) (pre := [.call 2 (.pop none), .run 2]) (st := asleep)
    (t0 := [.called 2 (.pop none), .blocks 2]) (evs := [.call 1 (.push 7 none), .run 1, .call 3 (.pop none), .run 3, .run 2, .run 2])
    (t := fun _ => _) (by simp) (by
      simp [exec, step, run, asleep, init, Ring.make, Ctxs.init, cs, popCS, apply, Ring.isEmpty, Op.side, enqueue, createWaker]
      funext k; simp only [upd_apply]; split <;> simp_all) hcyc
  simp only [List.length_cons, List.length_nil, Nat.zero_add, Nat.reduceAdd] at h1 h2 h3 h4 h5
  have hinfl : ∀ i, ∃ m, i ≤ 2 + 6 * m := fun i => ⟨i, by omega⟩
  have htr : ∀ m, retsOf 2 (r.tr (2 + 6 * m)) = 0 ∧ retsOf 3 (r.tr (2 + 6 * m)) = m ∧ (pushedVals (r.tr (2 + 6 * m))).length = m := by
    intro m
    induction m with
    | zero => simp [h4, retsOf, Obs.isRet, pushedVals]
    | succ m ih =>
      rw [h5 m]
      obtain ⟨a, b, c⟩ := ih
      refine ⟨by rw [BufCh.retsOf_append, a]; rfl, by rw [BufCh.retsOf_append, b]; rfl, by rw [pushedVals_append, List.length_append, c]; rfl⟩
  refine ⟨r, fun f i => ?_, ⟨0, ?_⟩, fun k => ⟨_, Nat.le_of_eq (htr k).2.2.symm, Nat.le_of_eq (htr k).2.1.symm⟩, fun i => ?_⟩
  · by_cases hf1 : f = 1
    · exact ⟨2 + 6 * i + 1, by omega, .inl (by rw [h2 i 1 (by omega), hf1]; rfl)⟩
    · by_cases hf2 : f = 2
      · exact ⟨2 + 6 * i + 4, by omega, .inl (by rw [h2 i 4 (by omega), hf2]; rfl)⟩
      · exact ⟨2 + 6 * i, by omega, .inr (by rw [h3 i]; simp [step, run, asleep, hf2])⟩
  · have h0 := r.next 0
    rw [r.start, h1 0 (by omega)] at h0
    simp [step, init] at h0
    rw [← h0.2]; simp
  · obtain ⟨m, hm⟩ := hinfl i
    obtain ⟨t, ht⟩ := r.tr_le hm
    have := (htr m).1
    rw [ht, BufCh.retsOf_append] at this
    omega

/-! ## The hypotheses can be met -/

/-- A finite history after which nobody can go on is the beginning of a fair execution. -/
theorem extend {pre : List (Event V)} {t : List (Obs V)}
    (h : ∃ s, exec step (init cap) pre = some (s, t) ∧ ∀ f, step s (.run f) = none ∧ step s (.timer f) = none) :
    ∃ r : Run (step (V := V)) (init cap), r.Fair Event.run ∧ r.Fair Event.timer ∧ (∀ i, pre.length ≤ i → r.tr i = t ∧ r.ob i = []) ∧
      (∀ i, ∀ o ∈ r.ob i, o ∈ t) ∧ ∀ o ∈ t, ∃ i, o ∈ r.ob i := by
  obtain ⟨s, h0, hq⟩ := h
  obtain ⟨r, h1, h2⟩ := Run.rests (e0 := .tick 0) h0 rfl
  have hob : ∀ i, pre.length ≤ i → r.ob i = [] := by
    intro i hi
    have a := (h2 i hi).2.2
    have b := (h2 (i + 1) (by omega)).2.2
    simp only [Run.tr, a] at b
    simpa using b
  refine ⟨r, r.rests_fair h2 fun f => (hq f).1, r.rests_fair h2 fun f => (hq f).2, fun i hi => ⟨(h2 i hi).2.2, hob i hi⟩, fun i o ho => ?_, fun o ho => ?_⟩
  · have hi : i + 1 ≤ pre.length := by
      refine Classical.byContradiction fun hn => ?_
      rw [hob i (by omega)] at ho; cases ho
    obtain ⟨t', ht⟩ := r.tr_le hi
    rw [← (h2 _ (Nat.le_refl _)).2.2, ht]
    simp [Run.tr, ho]
  · have : ∀ j o, o ∈ r.tr j → ∃ m, o ∈ r.ob m := by
      intro j
      induction j with
      | zero => intro o ho; simp [Run.tr] at ho
      | succ j ih =>
        intro o ho
        rcases List.mem_append.1 ho with h | h
        · exact ih o h
        · exact ⟨j, h⟩
    exact this pre.length o (by rw [(h2 _ (Nat.le_refl _)).2.2]; exact ho)

/-- `after_close_returns`, `nonblocking_returns`: fiber 2 sleeps in `pop()` when fiber 1 closes the channel. -/
example : ∃ r : Run (step (V := Nat)) (init 2), r.Fair Event.run ∧ (∃ i, Obs.called 2 (.pop none) ∈ r.ob i) ∧
    (∃ i, Obs.called 1 .close ∈ r.ob i) ∧ Obs.blocks 2 ∈ r.tr 6 ∧ closedIn (r.tr 6) := by
  obtain ⟨r, h1, _, h3, _, h5⟩ := extend (V := Nat) (cap := 2)
    (pre := [.call 2 (.pop none), .run 2, .call 1 .close, .run 1, .run 2, .run 2])
    (t := [.called 2 (.pop none), .blocks 2, .called 1 .close, .ret 1 .close .void [2] 0, .ret 2 (.pop none) .closed [] 0])
    ⟨_, rfl, fun f => by constructor <;> simp [step, run, init, upd_apply] <;> split <;> simp_all [Op.dl]⟩
  have := (h3 6 (by simp)).1
  exact ⟨r, h1, h5 _ (by simp), h5 _ (by simp), by rw [this]; simp, by rw [this]; exact ⟨1, .void, [2], 0, by simp⟩⟩

/-- `timed_returns`: a `pop_wait_until()` times out. -/
example : ∃ r : Run (step (V := Nat)) (init 2), r.Fair Event.run ∧ r.Fair Event.timer ∧ (∃ i, Obs.called 2 (.pop (some 3)) ∈ r.ob i) ∧
    Obs.expired 2 3 ∈ r.tr 6 := by
  obtain ⟨r, h1, h2, h3, _, h5⟩ := extend (V := Nat) (cap := 2)
    (pre := [.call 2 (.pop (some 3)), .run 2, .tick 3, .timer 2, .run 2, .run 2])
    (t := [.called 2 (.pop (some 3)), .blocks 2, .expired 2 3, .ret 2 (.pop (some 3)) .timeout [] 3])
    ⟨_, rfl, fun f => by constructor <;> simp [step, run, init, upd_apply] <;> split <;> simp_all [Op.dl]⟩
  exact ⟨r, h1, h2, h5 _ (by simp), by rw [(h3 6 (by simp)).1]; simp⟩

/-- `balance`, `sole_consumer_partial`, `sole_producer_partial`: two pushes and three pops on a channel for one
value; the second push and the last pop have to wait, the last pop for ever. -/
example : ∃ r : Run (step (V := Nat)) (init 2), r.Fair Event.run ∧
    (∀ i f op, Obs.called f op ∈ r.ob i → f ∈ [1, 2] ∧ op.dl = none ∧ op.side ≠ none) ∧ (∀ i f op w t, Obs.ret f op .failed w t ∉ r.ob i) ∧
    (∀ j, 13 ≤ j → ∀ f op, Obs.called f op ∉ r.ob j) ∧ (∀ i g op, Obs.called g op ∈ r.ob i → op.isPop → g = 2) ∧
    (∀ i g op, Obs.called g op ∈ r.ob i → op.value?.isSome → g = 1) ∧ pushedVals (r.tr 13) = [7, 8] ∧ poppedVals (r.tr 13) = [7, 8] ∧
    sideCalls .cons (r.tr 13) = 3 := by
  obtain ⟨r, h1, _, h3, h4, _⟩ := extend (V := Nat) (cap := 2)
    (pre := [.call 1 (.push 7 none), .run 1, .call 1 (.push 8 none), .run 1, .call 2 (.pop none), .run 2, .run 1, .run 1,
      .call 2 (.pop none), .run 2, .call 2 .valuePop, .run 2, .tick 0])
    (t := [.called 1 (.push 7 none), .ret 1 (.push 7 none) .pushed [] 0, .called 1 (.push 8 none), .blocks 1, .called 2 (.pop none),
      .ret 2 (.pop none) (.popped (some 7)) [1] 0, .ret 1 (.push 8 none) .pushed [] 0, .called 2 (.pop none),
      .ret 2 (.pop none) (.popped (some 8)) [] 0, .called 2 .valuePop, .blocks 2])
    ⟨_, rfl, fun f => by
      by_cases hf : f = 2
      · subst hf; exact ⟨rfl, rfl⟩
      · by_cases hf' : f = 1 <;> constructor <;> simp [step, run, init, upd_apply, hf, hf']⟩
  have ht := (h3 13 (by simp)).1
  refine ⟨r, h1, fun i f op h => ?_, fun i f op w t h => ?_, fun j hj f op h => ?_, fun i g op h hp => ?_, fun i g op h hp => ?_, by rw [ht]; rfl,
    by rw [ht]; rfl, by rw [ht]; rfl⟩
  · have := h4 i _ h
    simp at this
    rcases this with h | h | h | h <;> obtain ⟨rfl, rfl⟩ := h <;> simp [Op.dl, Op.side]
  · have := h4 i _ h
    simp at this
  · rw [(h3 j (by simpa using hj)).2] at h; cases h
  · have := h4 i _ h
    simp at this
    rcases this with h | h | h | h <;> obtain ⟨rfl, rfl⟩ := h <;> simp [Op.isPop] at hp ⊢
  · have := h4 i _ h
    simp at this
    rcases this with h | h | h | h <;> obtain ⟨rfl, rfl⟩ := h <;> simp [Op.value?] at hp ⊢

end Verif.Props.BufLive
