import Verif.UnbufLive

/-!
# Property C111: calls on an unbuffered channel return

`Run` and `Run.Fair` (whoever can go on goes on) are in `Verif/Fair.lean`. The `k`-th call of a fiber is seen as `called f k op` and its
return as `ret f k op result …`. `pushCalls`, `popCalls` count the calls made, `pushOks` the pushes that returned `success` and `popOks` the
pops that returned a value (`Verif/UnbufLive.lean`).
-/

namespace Verif.Props.UnbufLive

open Verif Verif.Unbuf

variable {V : Type} [DecidableEq V] {r : Run (step (V := V)) init}

/-- The number of a fiber's calls changes only with a call. -/
theorem calls_next {s s' : State V} {o : List (Obs V)} {e : Event V} {tr : List (Obs V)} (h : Reach step init s tr)
    (hs : step s e = some (s', o)) (hn : ∀ f k op, Obs.called f k op ∉ o) : s'.calls = s.calls := by
  rcases other_frame hs with ⟨f, b, -, h1⟩ | ⟨-, -, -, -, -, -, -, -, -, ⟨f, op, -, -, -, -, ho⟩ | ⟨-, h2, -⟩⟩
  · exact (run_frame (reach_w h).1 h1).1
  · exact absurd (by rw [ho]; simp) (hn f (s.calls f + 1) op)
  · exact h2

/-- After the last call the channel comes to rest. -/
theorem quiet {L : List Fid} (hL : L.Nodup) (hf : r.Fair Event.run) (ho : Only L r) {i : Nat}
    (hend : ∀ j, i ≤ j → ∀ f k op, Obs.called f k op ∉ r.ob j) :
    ∃ M, i ≤ M ∧ (∀ j, M ≤ j → r.ob j = [] ∧ r.tr j = r.tr M) ∧ ∀ f, step (r.st M) (.run f) = none := by
  have hsame : ∀ j, i ≤ j → (r.st j).calls = (r.st i).calls := by
    intro j hj
    obtain ⟨d, rfl⟩ := Nat.le.dest hj
    clear hj
    induction d with
    | zero => rfl
    | succ d ih => rw [← Nat.add_assoc, calls_next (r.reach _) (r.next _) (hend (i + d) (by omega)), ih]
  have hbound : ∀ (L : List Fid) (f : Fid), f ∈ L → (r.st i).calls f ≤ lsum L (r.st i).calls := by
    intro L f hf
    induction L with
    | nil => cases hf
    | cons x L ih =>
      simp only [lsum_cons]
      rcases List.mem_cons.1 hf with rfl | hf
      · omega
      · have := ih hf; omega
  obtain ⟨M, hM, hob, hq⟩ := settle hL ho hf (k := lsum L (r.st i).calls) (N := i)
    (fun j hj f hf => by rw [hsame j hj]; exact hbound L f hf)
  refine ⟨M, hM, fun j hj => ⟨hob j hj, ?_⟩, hq⟩
  obtain ⟨d, rfl⟩ := Nat.le.dest hj
  clear hj
  induction d with
  | zero => rfl
  | succ d ih => rw [← Nat.add_assoc]; simp only [Run.tr, hob (M + d) (by omega), List.append_nil, ih]

/-- **C111.** Only calls without a deadline are made, never `close`, no value throws, and at some time the last call is made. In the end
exactly as many have succeeded as can: of `P` pushes and `C` pops, `min P C` of each. -/
theorem balance {L : List Fid} (hL : L.Nodup) (hf : r.Fair Event.run)
    (ho : ∀ i f k op, Obs.called f k op ∈ r.ob i → f ∈ L ∧ op.dl = none ∧ op ≠ .close)
    (hnt : ∀ i f k op t, Obs.ret f k op .failed t ∉ r.ob i) {i : Nat} (hend : ∀ j, i ≤ j → ∀ f k op, Obs.called f k op ∉ r.ob j) :
    ∃ M, i ≤ M ∧ ∀ j, M ≤ j → pushOks (r.tr j) = min (pushCalls (r.tr j)) (popCalls (r.tr j)) ∧
      popOks (r.tr j) = min (pushCalls (r.tr j)) (popCalls (r.tr j)) := by
  obtain ⟨M, hM, hj, hq⟩ := quiet hL hf (fun i f k op h => ⟨(ho i f k op h).1, (ho i f k op h).2.1⟩) hend
  refine ⟨M, hM, fun j h => ?_⟩
  rw [(hj j h).2]
  refine rest_balance hL (r.reach M) (fun f k op h => ?_) (fun f k op t h => ?_) hq
  · obtain ⟨m, hm⟩ := run_mem M _ h; exact ho m f k op hm
  · obtain ⟨m, hm⟩ := run_mem M _ h; exact hnt m f k op t hm

/-- A call that was just made is numbered and under way; it stays so until it returns. -/
theorem done_or_in {M : Nat} {f : Fid} {k : Nat} {op : Op V} (h : Obs.called f k op ∈ r.tr M) (hn : ¬ InCall (r.tr M) f k op) :
    ∃ x t, Obs.ret f k op x t ∈ r.tr M := by
  refine Classical.byContradiction fun hc => hn ⟨h, fun x t hm => hc ⟨x, t, hm⟩⟩

/-- **C111, with `close`.** Calls without a deadline; no value throws, and at some time the last call is made. If the channel was closed, and no
value was put on offer after that, every call returns.

Missing for C111: a push that has read the flag before `close` sets it and puts its value on offer afterwards; it stays blocked
(`Verif.Unbuf.late_push_strands`). -/
theorem after_close_partial {L : List Fid} (hL : L.Nodup) (hf : r.Fair Event.run) (ho : ∀ i f k op, Obs.called f k op ∈ r.ob i → f ∈ L ∧ op.dl = none)
    (hnt : ∀ i f k op t, Obs.ret f k op .failed t ∉ r.ob i) {i : Nat} (hend : ∀ j, i ≤ j → ∀ f k op, Obs.called f k op ∉ r.ob j)
    {m : Nat} {c : Fid} (hcl : Obs.closedAt c ∈ r.ob m)
    (hoff : ∀ j t1 c t2, r.tr j = t1 ++ .closedAt c :: t2 → ∀ f k v, Obs.placed f k v ∉ t2) {n : Nat} {f : Fid} {k : Nat} {op : Op V}
    (hcall : Obs.called f k op ∈ r.ob n) : ∃ j x t, Obs.ret f k op x t ∈ r.ob j := by
  obtain ⟨M, hM, hj, hq⟩ := quiet hL hf ho hend
  have late : ∀ q o, o ∈ r.ob q → o ∈ r.tr M := by
    intro q o h
    have h1 : o ∈ r.tr (max M (q + 1)) := by
      obtain ⟨t, ht⟩ := r.tr_le (show q + 1 ≤ max M (q + 1) by omega)
      rw [ht]; simp [Run.tr, h]
    rw [(hj _ (by omega)).2] at h1
    exact h1
  have hnt' : NoThrow (r.tr M) := fun f k op t h => by
    obtain ⟨m, hm⟩ := run_mem M _ h; exact hnt m f k op t hm
  have hub : ∀ f, Obs.ub f ∉ r.tr M := by
    intro f h
    have := ub_flag (r.reach M) f h
    rw [run_ub r M] at this
    cases this
  obtain ⟨x, t, h⟩ := done_or_in (late n _ hcall) (close_releases_partial (r.reach M) (late m _ hcl) hub hnt' (hoff M) hq f k op)
  obtain ⟨j, hj⟩ := run_mem M _ h
  exact ⟨j, x, t, hj⟩

/-! ## Calls that never end -/

/-- Fiber 2 sleeps in `pop()`; `n` values have gone by. -/
def asleep (n : Nat) : State Nat where
  slot := none
  closed := false
  q := setQ (fun _ => []) .cons [⟨2, 2 * n + 1⟩]
  lk := fun _ => none
  c := { epoch := upd (upd (fun _ => 0) 1 (2 * n)) 2 (2 * n + 1), ready := fun _ => false }
  pc := upd (fun _ => .idle) 2 (.waitPop (.pop none) (2 * n + 1))
  calls := upd (upd (upd (fun _ => 0) 1 n) 2 1) 3 n
  now := 0
  ub := false

/-- What happens again and again. -/
def cycle : List (Event Nat) :=
  [.call 1 (.push 7 none), .run 1, .run 1, .run 1, .call 3 (.pop none), .run 3, .run 3, .run 3, .run 3, .run 1, .run 1, .run 2, .run 2, .run 2, .run 2]

/-- C111 needs the calls to come to an end: fiber 1 pushes values for ever and fiber 3 takes them. Under a fair schedule the `pop()` of
fiber 2 never returns: each time it is woken, fiber 3 has taken the offer before it runs, and it waits again. -/
theorem starves : ∃ r : Run (step (V := Nat)) init, r.Fair Event.run ∧ (∃ i, Obs.called 2 1 (.pop none) ∈ r.ob i) ∧
    (∀ k, ∃ i, k ≤ pushOks (r.tr i) ∧ k ≤ popOks (r.tr i)) ∧ ∀ i k op x t, Obs.ret 2 k op x t ∉ r.tr i := by
  have hcyc : ∀ n, exec step (asleep n) cycle =
      some (asleep (n + 1), [.called 1 (n + 1) (.push 7 none), .placed 1 (n + 1) 7, .called 3 (n + 1) (.pop none), .took 3 (n + 1) 1 (n + 1),
        .ret 3 (n + 1) (.pop none) (.popped 7) 0, .ret 1 (n + 1) (.push 7 none) .pushed 0]) := by
    intro n
    simp [cycle, exec, step, stepOk, run, asleep, startOf, State.goto, State.ret, State.resume, State.block, State.deref, frameOf, notifyOne, wake,
      consumeReady, enqueue, createWaker, setQ, setLk, PopOp.dl, PopOp.op]
    have h3 : 2 * n + 1 + 1 + 1 = 2 * (n + 1) + 1 := by omega
    rw [h3]
    refine ⟨?_, ?_, ⟨?_, ?_⟩, ?_, ?_⟩
    · funext k; cases k <;> rfl
    · funext k; cases k <;> rfl
    · funext k; simp only [upd_apply]; grind
    · funext k; simp only [upd_apply]; grind
    · funext k; simp only [upd_apply]; grind
    · funext k; simp only [upd_apply]; grind
  obtain ⟨r, h1, h2, h3, h4, h5⟩ := Run.lasso (step := step (V := Nat)) (init := init) (pre := [.call 2 (.pop none), .run 2, .run 2, .run 2]) (st := asleep)
    (t0 := [.called 2 1 (.pop none)]) (evs := cycle) (t := fun _ => _) (by simp [cycle]) (by
      simp [exec, step, stepOk, run, asleep, init, Ctxs.init, startOf, State.goto, State.block, enqueue, createWaker, setQ, setLk]
      refine ⟨?_, ?_, ?_, ?_⟩ <;> funext k <;> first | (cases k <;> rfl) | (simp only [upd_apply]; grind)) hcyc
  simp only [cycle, List.length_cons, List.length_nil, Nat.zero_add, Nat.reduceAdd] at h1 h2 h3 h4 h5
  have htr : ∀ m, pushOks (r.tr (4 + 15 * m)) = m ∧ popOks (r.tr (4 + 15 * m)) = m ∧ ∀ k op x t, Obs.ret 2 k op x t ∉ r.tr (4 + 15 * m) := by
    intro m
    induction m with
    | zero => simp [h4, pushOks, popOks, Obs.pushOk, Obs.popOk]
    | succ m ih =>
      rw [h5 m]
      obtain ⟨a, b, c⟩ := ih
      simp only [pushOks, popOks, List.countP_append] at a b ⊢
      refine ⟨by rw [a]; rfl, by rw [b]; rfl, fun k op x t => ?_⟩
      have := c k op x t
      simp [this]
  refine ⟨r, fun f i => ?_, ⟨0, ?_⟩, fun k => ⟨_, Nat.le_of_eq (htr k).1.symm, Nat.le_of_eq (htr k).2.1.symm⟩, fun i k op x t h => ?_⟩
  · by_cases hf1 : f = 1
    · exact ⟨4 + 15 * i + 1, by omega, .inl (by rw [h2 i 1 (by omega), hf1]; rfl)⟩
    · by_cases hf2 : f = 2
      · exact ⟨4 + 15 * i + 11, by omega, .inl (by rw [h2 i 11 (by omega), hf2]; rfl)⟩
      · exact ⟨4 + 15 * i, by omega, .inr (by rw [h3 i]; simp [step, stepOk, run, asleep, hf2])⟩
  · have h0 := r.next 0
    rw [r.start, h1 0 (by omega)] at h0
    simp [step, stepOk, init] at h0
    rw [← h0.2]; simp
  · obtain ⟨t', ht⟩ := r.tr_le (show i ≤ 4 + 15 * i by omega)
    exact (htr i).2.2 k op x t (by rw [ht]; simp [h])

/-! ## The hypotheses can be met -/

/-- A finite history after which nobody can go on is the beginning of a fair execution. -/
theorem extend {pre : List (Event V)} {t : List (Obs V)} (h : ∃ s, exec step init pre = some (s, t) ∧ s.ub = false ∧ ∀ f, step s (.run f) = none) :
    ∃ r : Run (step (V := V)) init, r.Fair Event.run ∧ (∀ i, pre.length ≤ i → r.tr i = t ∧ r.ob i = []) ∧
      (∀ i, ∀ o ∈ r.ob i, o ∈ t) ∧ ∀ o ∈ t, ∃ i, o ∈ r.ob i := by
  obtain ⟨s, h0, hub, hq⟩ := h
  obtain ⟨r, h1, h2⟩ := Run.rests (e0 := .tick 0) h0 (by cases s; simp only at hub; simp [step, hub, stepOk])
  have hob : ∀ i, pre.length ≤ i → r.ob i = [] := by
    intro i hi
    have a := (h2 i hi).2.2
    have b := (h2 (i + 1) (by omega)).2.2
    simp only [Run.tr, a] at b
    simpa using b
  refine ⟨r, r.rests_fair h2 hq, fun i hi => ⟨(h2 i hi).2.2, hob i hi⟩, fun i o ho => ?_, fun o ho => ?_⟩
  · have hi : i + 1 ≤ pre.length := by
      refine Classical.byContradiction fun hn => ?_
      rw [hob i (by omega)] at ho; cases ho
    obtain ⟨t', ht⟩ := r.tr_le hi
    rw [← (h2 _ (Nat.le_refl _)).2.2, ht]
    simp [Run.tr, ho]
  · exact run_mem pre.length o (by rw [(h2 _ (Nat.le_refl _)).2.2]; exact ho)

/-- `balance`: two pushes and one pop; the second push waits for ever. -/
example : ∃ r : Run (step (V := Nat)) init, r.Fair Event.run ∧
    (∀ i f k op, Obs.called f k op ∈ r.ob i → f ∈ [1, 2, 3] ∧ op.dl = none ∧ op ≠ .close) ∧ (∀ i f k op t, Obs.ret f k op .failed t ∉ r.ob i) ∧
    (∀ j, 19 ≤ j → ∀ f k op, Obs.called f k op ∉ r.ob j) ∧ pushCalls (r.tr 19) = 2 ∧ popCalls (r.tr 19) = 1 ∧ pushOks (r.tr 19) = 1 := by
  obtain ⟨r, h1, h3, h4, _⟩ := extend (V := Nat)
    (pre := [.call 2 (.push 8 none), .run 2, .call 1 (.push 7 none), .run 1, .run 1, .run 1, .run 2, .call 3 (.pop none), .run 3, .run 2, .run 2,
      .run 3, .run 3, .run 3, .run 1, .run 1, .run 2, .run 2, .run 2])
    (t := [.called 2 1 (.push 8 none), .called 1 1 (.push 7 none), .placed 1 1 7, .called 3 1 (.pop none), .took 3 1 1 1, .ret 3 1 (.pop none) (.popped 7) 0,
      .ret 1 1 (.push 7 none) .pushed 0, .placed 2 1 8])
    ⟨_, rfl, rfl, fun f => by
      by_cases hf : f = 2
      · subst hf; rfl
      by_cases hf1 : f = 1
      · subst hf1; rfl
      by_cases hf3 : f = 3
      · subst hf3; rfl
      simp [step, stepOk, run, upd, hf, hf1, hf3, init, State.goto, State.block]⟩
  have ht := (h3 19 (by simp)).1
  refine ⟨r, h1, fun i f k op h => ?_, fun i f k op t h => ?_, fun j hj f k op h => ?_, by rw [ht]; rfl, by rw [ht]; rfl, by rw [ht]; rfl⟩
  · have := h4 i _ h
    simp at this
    rcases this with h | h | h <;> obtain ⟨rfl, rfl, rfl⟩ := h <;> simp [Op.dl]
  · have := h4 i _ h
    simp at this
  · rw [(h3 j (by simpa using hj)).2] at h; cases h

/-- `after_close_partial`: two pops sleep when the channel is closed. -/
example : ∃ r : Run (step (V := Nat)) init, r.Fair Event.run ∧ (∀ i f k op, Obs.called f k op ∈ r.ob i → f ∈ [1, 2, 3] ∧ op.dl = none) ∧
    (∀ i f k op t, Obs.ret f k op .failed t ∉ r.ob i) ∧ (∀ j, 19 ≤ j → ∀ f k op, Obs.called f k op ∉ r.ob j) ∧ (∃ m, Obs.closedAt 3 ∈ r.ob m) ∧
    (∀ j t1 c t2, r.tr j = t1 ++ .closedAt c :: t2 → ∀ f k v, Obs.placed f k v ∉ t2) ∧ ∃ n, Obs.called 1 1 (.pop none) ∈ r.ob n := by
  obtain ⟨r, h1, h3, h4, h5⟩ := extend (V := Nat)
    (pre := [.call 1 (.pop none), .run 1, .run 1, .run 1, .call 2 .valuePop, .run 2, .run 2, .run 2,
      .call 3 .close, .run 3, .run 3, .run 3, .run 3, .run 1, .run 1, .run 1, .run 2, .run 2, .run 2])
    (t := [.called 1 1 (.pop none), .called 2 1 .valuePop, .called 3 1 .close, .closedAt 3, .ret 3 1 .close .void 0, .ret 1 1 (.pop none) .closed 0,
      .ret 2 1 .valuePop .threw 0])
    ⟨_, rfl, rfl, fun f => by
      by_cases hf : f = 2
      · subst hf; rfl
      by_cases hf1 : f = 1
      · subst hf1; rfl
      by_cases hf3 : f = 3
      · subst hf3; rfl
      simp [step, stepOk, run, upd, hf, hf1, hf3, init, State.goto, State.block]⟩
  refine ⟨r, h1, fun i f k op h => ?_, fun i f k op t h => ?_, fun j hj f k op h => ?_, h5 _ (by simp), fun j t1 c t2 h f k v hm => ?_, h5 _ (by simp)⟩
  · have := h4 i _ h
    simp at this
    rcases this with h | h | h <;> obtain ⟨rfl, rfl, rfl⟩ := h <;> simp [Op.dl]
  · have := h4 i _ h
    simp at this
  · rw [(h3 j (by simpa using hj)).2] at h; cases h
  · obtain ⟨m, hm⟩ := run_mem j (.placed f k v) (by rw [h]; simp [hm])
    have := h4 m _ hm
    simp at this

end Verif.Props.UnbufLive
