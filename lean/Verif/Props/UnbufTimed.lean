import Verif.UnbufTimed

/-!
# Property C117: a timed call on an unbuffered channel returns when its deadline has passed

`Run`, `Run.Strong` (who can go on again and again goes on) and `Run.Fair` are in `Verif/Fair.lean`. The `k`-th call of a fiber is seen as
`called f k op` and its return as `ret f k op result …`; `push v (some d)` is `push_wait_until` and `pop (some d)` is `pop_wait_until` with
deadline `d`. `Still f o` (`Verif/UnbufTimed.lean`): none of the observations `o` is another fiber's `placed`, `took` or timed-out push.
-/

namespace Verif.Props.UnbufTimed

open Verif Verif.Unbuf

variable {V : Type} {r : Run (step (V := V)) init}

/-- **C117, with calm.** A call with a deadline returns when the deadline has passed, if from some time on no other fiber puts a value on
offer, takes one, or withdraws one.

Missing for C117: the case that others exchange values for ever (`timed_push_spins`, `timed_pop_spins`). -/
theorem timed_call_returns_partial (hf : r.Strong Event.run) (ht : r.Fair Event.timer) {i n N : Nat} {f : Fid} {op : Op V} {d k : Nat}
    (hop : (∃ v, op = .push v (some d)) ∨ op = .pop (some d)) (hn : d ≤ (r.st n).now) (hst : ∀ m, N ≤ m → Still f (r.ob m))
    (hc : .called f k op ∈ r.ob i) : ∃ j x t, .ret f k op x t ∈ r.ob j :=
  timed_ends hf ht (by rcases hop with ⟨v, rfl⟩ | rfl <;> rfl) hn hst hc

/-! ## Timed calls that never return -/

/-- Fiber 1 is at `p`, nobody else is in a call; `n` values have gone from fiber 2 to fiber 3. -/
def spin (p : Pc Nat) (e n : Nat) : State Nat where
  slot := none
  closed := false
  q := fun _ => []
  lk := fun _ => none
  c := { epoch := upd (upd (fun _ => 0) 1 (e * n)) 2 (2 * n), ready := fun _ => false }
  pc := upd (fun _ => .idle) 1 p
  calls := upd (upd (upd (fun _ => 0) 1 1) 2 n) 3 n
  now := n + 6
  ub := false

/-- One value goes from fiber 2 to fiber 3. -/
def passed (n : Nat) : List (Obs Nat) :=
  [.called 2 (n + 1) (.push 7 none), .placed 2 (n + 1) 7, .called 3 (n + 1) (.pop none), .took 3 (n + 1) 2 (n + 1),
    .ret 3 (n + 1) (.pop none) (.popped 7) (n + 6), .ret 2 (n + 1) (.push 7 none) .pushed (n + 6)]

/-- Who makes no call is in none. -/
theorem idle_step {s s' : State V} {f : Fid} {o : List (Obs V)} {e : Event V} (hw : WI s) (h : s.pc f = .idle) (he : ∀ op, e ≠ .call f op)
    (hs : stepOk s e = some (s', o)) : s'.pc f = .idle := by
  cases e with
  | run g =>
    by_cases hg : f = g
    · subst hg; simp [stepOk, run, h] at hs
    · rw [((run_frame hw hs).2.2 f hg).1]; exact h
  | fail g =>
    by_cases hg : f = g
    · subst hg; simp [stepOk, run, h] at hs
    · rw [((run_frame hw hs).2.2 f hg).1]; exact h
  | tick n => simp only [stepOk, Option.some.injEq, Prod.mk.injEq] at hs; obtain ⟨rfl, rfl⟩ := hs; exact h
  | call g op =>
    have hg : f ≠ g := by rintro rfl; exact he op rfl
    simp only [stepOk] at hs
    split at hs <;> simp only [Option.some.injEq, Prod.mk.injEq, reduceCtorEq] at hs
    obtain ⟨rfl, rfl⟩ := hs
    simp [upd_apply, hg, h]
  | _ =>
    simp only [stepOk] at hs
    (repeat' split at hs) <;> simp only [Option.some.injEq, Prod.mk.injEq, reduceCtorEq] at hs
    obtain ⟨rfl, rfl⟩ := hs
    exact h

/-- If fiber 1 can go round from `p` to `p` while a value goes from fiber 2 to fiber 3, it can do so for ever. -/
theorem spins {op : Op Nat} {p : Pc Nat} {e : Nat} {cyc : List (Event Nat)} (hcyc : ∀ n, exec step (spin p e n) cyc = some (spin p e (n + 1), passed n))
    (h0 : exec step init [.call 1 op, .tick 6] = some (spin p e 0, [.called 1 1 op])) (hp : sleepOf p = none)
    (hr : ∀ f, f = 1 ∨ f = 2 ∨ f = 3 → ∃ j, ∃ h : j < cyc.length, cyc[j] = .run f) (hc : ∀ f op, .call f op ∈ cyc → f = 2 ∨ f = 3) :
    ∃ r : Run (step (V := Nat)) init, r.Strong Event.run ∧ r.Fair Event.timer ∧ (∃ i, Obs.called 1 1 op ∈ r.ob i) ∧
      (∀ t, ∃ i, t ≤ (r.st i).now) ∧ ∀ i k op x t, Obs.ret 1 k op x t ∉ r.ob i := by
  have hne : cyc ≠ [] := by rintro rfl; obtain ⟨j, h, -⟩ := hr 1 (.inl rfl); cases h
  obtain ⟨r, h1, h2, h3, h4, h5⟩ := Run.lasso (step := step (V := Nat)) (init := init) (st := spin p e) (evs := cyc) (t := passed) (List.length_pos_iff.2 hne) h0 hcyc
  simp only [List.length_cons, List.length_nil, Nat.zero_add, Nat.reduceAdd] at h1 h2 h3 h4 h5
  have hpos : 0 < cyc.length := List.length_pos_iff.2 hne
  have hbig : ∀ i, i ≤ cyc.length * i := fun i => Nat.le_mul_of_pos_left i hpos
  have hidle : ∀ f, f ≠ 1 → f ≠ 2 → f ≠ 3 → ∀ i, (r.st i).pc f = .idle := by
    intro f hf1 hf2 hf3 i
    induction i with
    | zero => rw [r.start]; rfl
    | succ i ih =>
      refine idle_step (reach_w (r.reach i)).1 ih (fun op' he => ?_) (next_ok r i)
      by_cases hi : i < 2
      · have := h1 i hi
        have hi' : i = 0 ∨ i = 1 := by omega
        rcases hi' with rfl | rfl <;> simp [he] at this
        exact hf1 this.1
      · have hd := Nat.div_add_mod (i - 2) cyc.length
        have := h2 ((i - 2) / cyc.length) ((i - 2) % cyc.length) (Nat.mod_lt _ hpos)
        rw [Nat.add_assoc, hd, Nat.add_sub_cancel' (by omega), he] at this
        rcases hc f op' (by rw [this]; exact List.getElem_mem _) with h | h
        · exact hf2 h
        · exact hf3 h
  refine ⟨r, fun f hinf i => ?_, fun f i => ⟨2 + cyc.length * i, by have := hbig i; omega, .inr ?_⟩, ⟨0, ?_⟩, fun t => ⟨2 + cyc.length * t, ?_⟩,
    fun i k op x t h => ?_⟩
  · by_cases hf : f = 1 ∨ f = 2 ∨ f = 3
    · obtain ⟨j, hj, he⟩ := hr f hf
      exact ⟨2 + cyc.length * i + j, by have := hbig i; omega, by rw [h2 i j hj, he]⟩
    · obtain ⟨j, -, h⟩ := hinf 0
      have := hidle f (fun h => hf (.inl h)) (fun h => hf (.inr (.inl h))) (fun h => hf (.inr (.inr h))) j
      rw [step_ok (run_ub r j)] at h
      simp [stepOk, run, this] at h
  · rw [h3 i]
    by_cases hf : f = 1
    · subst hf; simp [step, stepOk, spin, hp]
    · simp [step, stepOk, spin, hf, sleepOf]
  · have ha := r.next 0
    rw [r.start, h1 0 (by omega)] at ha
    simp [step, stepOk, init] at ha
    rw [← ha.2]; simp
  · rw [h3 t]; simp only [spin]; omega
  · have htr : ∀ m, ∀ k op x t, Obs.ret 1 k op x t ∉ r.tr (2 + cyc.length * m) := by
      intro m
      induction m with
      | zero => simp [h4]
      | succ m ih =>
        intro k op x t
        rw [h5 m]
        simp [ih k op x t, passed]
    obtain ⟨t', ht⟩ := r.tr_le (show i + 1 ≤ 2 + cyc.length * (i + 1) by have := hbig (i + 1); omega)
    exact htr (i + 1) k op x t (by rw [ht]; simp [Run.tr, h])

/-- **C117 fails.** Fiber 1 calls `push_wait_until` with deadline 5. On a strongly fair execution on which the clock passes every time its call
never returns: whenever it looks, the value of fiber 2 is in the slot, and when it holds the lock, fiber 3 has just taken it. It then starts
again without looking at the clock. -/
theorem timed_push_spins : ∃ r : Run (step (V := Nat)) init, r.Strong Event.run ∧ r.Fair Event.timer ∧
    (∃ i, Obs.called 1 1 (.push 9 (some 5)) ∈ r.ob i) ∧ (∀ t, ∃ i, t ≤ (r.st i).now) ∧ ∀ i k op x t, Obs.ret 1 k op x t ∉ r.ob i := by
  refine spins (p := .pushStart 9 (some 5)) (e := 1)
    (cyc := [.call 2 (.push 7 none), .run 2, .run 2, .run 2, .run 1, .run 1, .run 1, .call 3 (.pop none), .run 3, .run 1, .run 3, .run 3, .run 3, .run 2,
      .run 2, .tick 1]) (fun n => ?_) ?_ rfl (fun f hf => ?_) (fun f op h => ?_)
  · simp [exec, step, stepOk, run, spin, passed, startOf, State.goto, State.ret, State.resume, State.block, State.deref, frameOf, notifyOne, wake,
      consumeReady, enqueue, createWaker, setQ, setLk, PopOp.dl, PopOp.op]
    refine ⟨?_, ?_, ⟨?_, ?_⟩, ?_, ?_⟩
    all_goals first
      | (funext k; cases k <;> rfl)
      | (funext k; simp only [upd_apply]; grind)
  · simp [exec, step, stepOk, run, spin, init, Ctxs.init, startOf]
    constructor <;> (funext k; simp only [upd_apply]; grind)
  · rcases hf with rfl | rfl | rfl
    · exact ⟨4, by decide, rfl⟩
    · exact ⟨1, by decide, rfl⟩
    · exact ⟨8, by decide, rfl⟩
  · simp at h; rcases h with h | h <;> simp [h.1]

/-- **C117 fails** for `pop_wait_until` as well: the slot is empty whenever it looks, and when it holds the lock, fiber 2 has just put a value
there, which fiber 3 then takes. -/
theorem timed_pop_spins : ∃ r : Run (step (V := Nat)) init, r.Strong Event.run ∧ r.Fair Event.timer ∧
    (∃ i, Obs.called 1 1 (.pop (some 5)) ∈ r.ob i) ∧ (∀ t, ∃ i, t ≤ (r.st i).now) ∧ ∀ i k op x t, Obs.ret 1 k op x t ∉ r.ob i := by
  refine spins (p := .popStart (.pop (some 5))) (e := 0)
    (cyc := [.run 1, .run 1, .call 2 (.push 7 none), .run 2, .run 2, .run 1, .run 2, .call 3 (.pop none), .run 3, .run 3, .run 3, .run 3, .run 2, .run 2,
      .tick 1]) (fun n => ?_) ?_ rfl (fun f hf => ?_) (fun f op h => ?_)
  · simp [exec, step, stepOk, run, spin, passed, startOf, State.goto, State.ret, State.resume, State.block, State.deref, frameOf, notifyOne, wake,
      consumeReady, enqueue, createWaker, setQ, setLk, PopOp.dl, PopOp.op]
    refine ⟨?_, ?_, ⟨?_, ?_⟩, ?_, ?_⟩
    all_goals first
      | (funext k; cases k <;> rfl)
      | (funext k; simp only [upd_apply]; grind)
  · simp [exec, step, stepOk, run, spin, init, Ctxs.init, startOf]
    constructor <;> (funext k; simp only [upd_apply]; grind)
  · rcases hf with rfl | rfl | rfl
    · exact ⟨0, by decide, rfl⟩
    · exact ⟨3, by decide, rfl⟩
    · exact ⟨8, by decide, rfl⟩
  · simp at h; rcases h with h | h <;> simp [h.1]

/-! ## The hypotheses can be met -/

/-- `timed_call_returns_partial`: fiber 1 offers a value and fiber 2 waits for the slot; nobody pops, and both time out. -/
example : ∃ r : Run (step (V := Nat)) init, r.Strong Event.run ∧ r.Fair Event.timer ∧ (∃ n, 5 ≤ (r.st n).now) ∧
    (∀ m, 17 ≤ m → Still 2 (r.ob m)) ∧ (∃ i, .called 2 1 (.push 8 (some 5)) ∈ r.ob i) ∧ .ret 2 1 (.push 8 (some 5)) .timeout 6 ∈ r.tr 17 := by
  have he : ∃ s, exec step init [.call 1 (.push 9 (some 4)), .run 1, .run 1, .run 1, .call 2 (.push 8 (some 5)), .run 2, .run 2, .run 2, .run 2, .tick 6,
      .timer 2, .timer 1, .run 1, .run 1, .run 2, .run 2, .tick 1] = some (s, [.called 1 1 (.push 9 (some 4)), .placed 1 1 9,
      .called 2 1 (.push 8 (some 5)), .ret 1 1 (.push 9 (some 4)) .timeout 6, .ret 2 1 (.push 8 (some 5)) .timeout 6]) ∧
      step s (.tick 0) = some (s, []) ∧ s.now = 7 ∧ ∀ f, step s (.run f) = none ∧ step s (.timer f) = none := by
    refine ⟨_, rfl, rfl, rfl, fun f => ?_⟩
    by_cases hf : f = 2
    · subst hf; exact ⟨rfl, rfl⟩
    by_cases hf1 : f = 1
    · subst hf1; exact ⟨rfl, rfl⟩
    constructor <;> simp [step, stepOk, run, upd, hf, hf1, init, sleepOf, State.goto, State.block, startOf, wake, createWaker, enqueue]
  obtain ⟨s, h0, hst, hnow, hq⟩ := he
  obtain ⟨r, h1, h2⟩ := Run.rests (e0 := .tick 0) h0 hst
  simp only [List.length_cons, List.length_nil, Nat.zero_add, Nat.reduceAdd] at h1 h2
  refine ⟨r, ?_, fun f i => ⟨max i 17, by omega, .inr (by rw [(h2 _ (by omega)).2.1]; exact (hq f).2)⟩, ⟨17, by rw [(h2 17 (by omega)).2.1, hnow]; omega⟩, fun m hm => ?_, ?_, ?_⟩
  · intro f hinf
    obtain ⟨j, hj, h⟩ := hinf 17
    rw [(h2 j hj).2.1] at h
    exact absurd (hq f).1 h
  · have a := (h2 m hm).2.2
    have b := (h2 (m + 1) (by omega)).2.2
    simp only [Run.tr, a] at b
    have : r.ob m = [] := by simpa using b
    rw [this]; intro g _; simp
  · exact run_mem 17 _ (by rw [(h2 17 (by omega)).2.2]; simp)
  · rw [(h2 17 (by omega)).2.2]; simp

end Verif.Props.UnbufTimed
