import Verif.ThreadBarrierInv

/-!
# C130: the barrier of threads

Calls of `wait()` are numbered from 0 in the order in which they are made; with a barrier for `n` threads the call number `k` belongs to batch `k / n`,
which is complete when `(k / n + 1) * n` calls have been made.
-/

namespace Verif.Props.ThreadBarrier

open Verif Verif.ThreadBarrier

/-- The number that an observation gives to a call that is made. -/
def callNo : Obs → Option Nat
  | .call _ k => some k
  | .ret .. => none

/-- The number of the call that returns. -/
def retNo : Obs → Option Nat
  | .call .. => none
  | .ret _ k _ => some k

/-- The calls of a history, in order. -/
def callNos (tr : List Obs) : List Nat := tr.filterMap callNo

/-- The calls that have returned, in order. -/
def retNos (tr : List Obs) : List Nat := tr.filterMap retNo

/-- No thread can go on inside `wait()` (there may be new calls, and wakeups without a notification). -/
def AtRest (P : Prog) (s : State) : Prop := ∀ t, step P s (.go t) = none

/-- What a step observes: nothing, a new call with the next number, or the return of the call that a thread is in. -/
theorem step_obs {P : Prog} {s s' : State} {e : Event} {o : List Obs} (hs : step P s e = some (s', o)) :
    (o = [] ∧ s'.calls = s.calls ∧ s'.idx = s.idx ∧ ∀ t, s'.pc t = .idle ↔ s.pc t = .idle) ∨
    (∃ t, o = [.call t s.calls] ∧ s'.calls = s.calls + 1 ∧ s'.idx = upd s.idx t s.calls ∧ s.pc t = .idle ∧ ∀ u, s'.pc u = .idle ↔ u ≠ t ∧ s.pc u = .idle) ∨
    (∃ t b, o = [.ret t (s.idx t) b] ∧ s'.calls = s.calls ∧ s'.idx = s.idx ∧ (∀ u, s'.pc u = .idle ↔ u = t ∨ s.pc u = .idle) ∧
      ((b = true ∧ s.pc t = .notify) ∨ (b = false ∧ ∃ c, s.pc t = .awake c ∧ s.cycle ≠ c))) := by
  cases e with
  | call t =>
    simp only [step] at hs
    split at hs
    · rename_i ht
      refine .inr (.inl ⟨t, ?_⟩)
      split at hs <;> simp only [Option.some.injEq, Prod.mk.injEq] at hs <;> obtain ⟨rfl, rfl⟩ := hs <;>
        refine ⟨rfl, rfl, rfl, ht.2, fun u => ?_⟩ <;> simp only [upd_apply] <;> split <;> simp_all
    · simp at hs
  | go t =>
    simp only [step] at hs
    split at hs
    · rename_i ht
      simp only [Option.some.injEq, Prod.mk.injEq] at hs; obtain ⟨rfl, rfl⟩ := hs
      refine .inr (.inr ⟨t, true, rfl, rfl, rfl, fun u => ?_, .inl ⟨rfl, ht⟩⟩)
      simp only [wakeAll_upd]
      split
      · simp_all
      · simp only [wakeAll]; split <;> simp_all
    · rename_i c ht
      split at hs <;> rename_i hc <;> simp only [Option.some.injEq, Prod.mk.injEq] at hs <;> obtain ⟨rfl, rfl⟩ := hs
      · refine .inl ⟨rfl, rfl, rfl, fun u => ?_⟩
        simp only [upd_apply]; split <;> simp_all
      · refine .inr (.inr ⟨t, false, rfl, rfl, rfl, fun u => ?_, .inr ⟨rfl, c, ht, hc⟩⟩)
        simp only [upd_apply]; split <;> simp_all
    · simp at hs
  | wake t =>
    simp only [step] at hs
    split at hs
    · rename_i c ht
      simp only [Option.some.injEq, Prod.mk.injEq] at hs; obtain ⟨rfl, rfl⟩ := hs
      refine .inl ⟨rfl, rfl, rfl, fun u => ?_⟩
      simp only [upd_apply]; split <;> simp_all
    · simp at hs

/-- What the history says about the state. -/
structure Hist (s : State) (tr : List Obs) : Prop where
  nos : callNos tr = List.range s.calls
  mine : ∀ t, s.pc t ≠ .idle → .call t (s.idx t) ∈ tr
  open' : ∀ t k, .call t k ∈ tr → (∃ b, .ret t k b ∈ tr) ∨ (s.pc t ≠ .idle ∧ s.idx t = k)
  lt : ∀ t, s.pc t ≠ .idle → s.idx t < s.calls
  inj : ∀ t u, s.pc t ≠ .idle → s.pc u ≠ .idle → s.idx t = s.idx u → t = u
  rlt : ∀ k, k ∈ retNos tr → k < s.calls
  over : ∀ k, k ∈ retNos tr → ∀ t, s.pc t ≠ .idle → s.idx t ≠ k
  once : (retNos tr).Nodup

theorem hist {P : Prog} {s : State} {tr : List Obs} (h : Reach (step P) (init P) s tr) : Hist s tr := by
  induction h with
  | refl => constructor <;> simp [init, callNos, retNos]
  | @tail s1 s2 tr1 o e _ he ih =>
    obtain ⟨h1, h2, h3, h4, h5, h6, h7, h8⟩ := ih
    rcases step_obs he with ⟨rfl, hc, hi, hp⟩ | ⟨t, rfl, hc, hi, ht, hp⟩ | ⟨t, b, rfl, hc, hi, hp, hb⟩
    · simp only [List.append_nil]
      constructor
      · rw [hc]; exact h1
      all_goals (try simp only [hc, hi, ne_eq, hp]); assumption
    · have hr : ∀ tr : List Obs, ∀ k, retNos (tr ++ [.call t k]) = retNos tr := by intro tr k; simp [retNos, retNo]
      constructor
      · rw [hc, List.range_succ, ← h1]; simp [callNos, callNo]
      · intro u hu
        simp only [ne_eq, hp, hi, upd_apply] at hu ⊢
        by_cases e : u = t
        · simp [e]
        · have := h2 u (by simpa [e] using hu); simp [e, this]
      · intro u k hk
        simp only [ne_eq, hp, hi, upd_apply, List.mem_append, List.mem_singleton, Obs.call.injEq] at hk ⊢
        rcases hk with hk | ⟨rfl, rfl⟩
        · rcases h3 u k hk with ⟨b, hb⟩ | ⟨a, b⟩
          · exact .inl ⟨b, .inl hb⟩
          · have e : u ≠ t := by intro e; rw [e] at a; exact a ht
            exact .inr ⟨by simp [e, a], by simp [e, b]⟩
        · exact .inr ⟨by simp, by simp⟩
      · intro u hu
        simp only [ne_eq, hp, hi, upd_apply] at hu ⊢
        by_cases e : u = t
        · simp [e, hc]
        · have := h4 u (by simpa [e] using hu); simp [e, hc]; omega
      · intro u v hu hv
        simp only [ne_eq, hp, hi, upd_apply] at hu hv ⊢
        by_cases e : u = t <;> by_cases e' : v = t
        · simp [e, e']
        · have := h4 v (by simpa [e'] using hv); simp [e, e']; omega
        · have := h4 u (by simpa [e] using hu); simp [e, e']; omega
        · simp only [if_neg e, if_neg e']; exact h5 u v (by simpa [e] using hu) (by simpa [e'] using hv)
      · intro k hk; rw [hr] at hk; have := h6 k hk; omega
      · intro k hk u hu
        rw [hr] at hk
        simp only [ne_eq, hp, hi, upd_apply] at hu ⊢
        have := h6 k hk
        by_cases e : u = t
        · simp [e]; omega
        · simp only [if_neg e]; exact h7 k hk u (by simpa [e] using hu)
      · rw [hr]; exact h8
    · have ht : s1.pc t ≠ .idle := by rcases hb with ⟨_, h⟩ | ⟨_, c, h, _⟩ <;> rw [h] <;> simp
      have hr : ∀ tr : List Obs, ∀ k, retNos (tr ++ [.ret t k b]) = retNos tr ++ [k] := by intro tr k; simp [retNos, retNo]
      have hcn : ∀ tr : List Obs, ∀ k, callNos (tr ++ [.ret t k b]) = callNos tr := by intro tr k; simp [callNos, callNo]
      constructor
      · rw [hcn, hc]; exact h1
      · intro u hu
        simp only [ne_eq, hp, hi, not_or] at hu ⊢
        have := h2 u hu.2; simp [this]
      · intro u k hk
        simp only [ne_eq, hp, hi, not_or, List.mem_append, List.mem_singleton, reduceCtorEq, or_false, Obs.ret.injEq] at hk ⊢
        rcases h3 u k hk with ⟨b', hb'⟩ | ⟨a, b'⟩
        · exact .inl ⟨b', .inl hb'⟩
        · by_cases e : u = t
          · subst e; exact .inl ⟨b, .inr ⟨rfl, b'.symm, rfl⟩⟩
          · exact .inr ⟨⟨e, a⟩, b'⟩
      · intro u hu
        simp only [ne_eq, hp, hi, hc, not_or] at hu ⊢
        exact h4 u hu.2
      · intro u v hu hv
        simp only [ne_eq, hp, hi, not_or] at hu hv ⊢
        exact h5 u v hu.2 hv.2
      · intro k hk
        rw [hr, List.mem_append, List.mem_singleton] at hk
        rw [hc]
        rcases hk with hk | rfl
        · exact h6 k hk
        · exact h4 t ht
      · intro k hk u hu
        rw [hr, List.mem_append, List.mem_singleton] at hk
        simp only [ne_eq, hp, hi, not_or] at hu ⊢
        rcases hk with hk | rfl
        · exact h7 k hk u hu.2
        · intro e; exact hu.1 (h5 u t hu.2 ht e)
      · rw [hr, List.nodup_append]
        refine ⟨h8, by simp, ?_⟩
        intro a ha c hc' e
        simp only [List.mem_singleton] at hc'
        subst hc'; subst e
        exact h7 _ ha t ht rfl

/-- Calls are numbered in the order in which they are made. -/
theorem calls_numbered {P : Prog} {s : State} {tr : List Obs} (h : Reach (step P) (init P) s tr) :
    callNos tr = List.range (callNos tr).length := by
  have := (hist h).nos
  rw [this, List.length_range]

/-- A call returns at most once. -/
theorem returns_once {P : Prog} {s : State} {tr : List Obs} (h : Reach (step P) (init P) s tr) : (retNos tr).Nodup := (hist h).once

/-- Nobody passes early, and nobody returns from a call that they did not make: when a call returns, to the thread that made it, all calls of its batch
have been made. -/
theorem not_early {P : Prog} (hn : 0 < P.n) {s : State} {tr : List Obs} (h : Reach (step P) (init P) s tr) :
    ∀ before after t k b, tr = before ++ .ret t k b :: after → .call t k ∈ before ∧ (k / P.n + 1) * P.n ≤ (callNos before).length := by
  induction h with
  | refl => intro b a t k r e; simp at e
  | tail e hr he ih =>
    rename_i s1 s2 tr1 o
    intro before after t k b heq
    have hh := hist hr
    have hb := reach_base hn hr
    have split : ∀ x, o = [x] → (before = tr1 ∧ x = .ret t k b) ∨ ∃ after', tr1 = before ++ .ret t k b :: after' := by
      intro x hx
      rw [hx] at heq
      rcases List.eq_nil_or_concat after with rfl | ⟨a', y, rfl⟩
      · have := List.append_inj' heq rfl
        exact .inl ⟨this.1.symm, by simpa using this.2⟩
      · refine .inr ⟨a', ?_⟩
        rw [List.concat_eq_append, ← List.cons_append, ← List.append_assoc] at heq
        exact (List.append_inj' heq rfl).1
    rcases step_obs he with ⟨rfl, _⟩ | ⟨u, ho, _⟩ | ⟨u, b', ho, _, _, _, hcase⟩
    · rw [List.append_nil] at heq; exact ih _ _ _ _ _ heq
    · rcases split _ ho with ⟨_, hx⟩ | ⟨a', ha⟩
      · cases hx
      · exact ih _ _ _ _ _ ha
    · rcases split _ ho with ⟨rfl, hx⟩ | ⟨a', ha⟩
      · cases hx
        have busy : s1.pc t ≠ .idle := by rcases hcase with ⟨_, h⟩ | ⟨_, c, h, _⟩ <;> rw [h] <;> simp
        refine ⟨hh.mine t busy, ?_⟩
        rw [hh.nos, List.length_range]
        have lt : s1.idx t / P.n < s1.calls / P.n := by
          rcases hcase with ⟨_, h⟩ | ⟨_, c, h, hc⟩
          · exact (hb.notify t h).1
          · have ne : s1.idx t / P.n ≠ s1.calls / P.n := by
              apply par_ne; rw [← (hb.awake t c h).1, ← hb.cyc]; exact fun e => hc e.symm
            have := Nat.div_le_div_right (c := P.n) (Nat.le_of_lt (hb.idx t busy))
            omega
        exact Nat.le_trans (Nat.mul_le_mul_right _ lt) (Nat.div_mul_le_self _ _)
      · exact ih _ _ _ _ _ ha

/-- `wait()` returns `true` to the last caller of a batch and to nobody else. -/
theorem last_gets_true {P : Prog} (hn : 0 < P.n) {s : State} {tr : List Obs} (h : Reach (step P) (init P) s tr) :
    ∀ t k b, .ret t k b ∈ tr → (b = true ↔ k % P.n + 1 = P.n) := by
  induction h with
  | refl => simp
  | tail e hr he ih =>
    intro t k b hm
    have hb := reach_base hn hr
    rw [List.mem_append] at hm
    rcases hm with hm | hm
    · exact ih t k b hm
    rcases step_obs he with ⟨rfl, _⟩ | ⟨u, rfl, _⟩ | ⟨u, b', rfl, _, _, _, hcase⟩
    · simp at hm
    · simp at hm
    · simp only [List.mem_singleton, Obs.ret.injEq] at hm
      obtain ⟨rfl, rfl, rfl⟩ := hm
      rcases hcase with ⟨rfl, h⟩ | ⟨rfl, c, h, _⟩
      · simp [(hb.notify t h).2]
      · simp [(hb.awake t c h).2]

/-- Nobody is left behind: with not more threads than the barrier waits for, when no thread can go on then the calls that have not returned are
those of a batch that is not complete. -/
theorem nobody_stranded {P : Prog} (hn : 0 < P.n) (hm : P.threads ≤ P.n) {s : State} {tr : List Obs} (h : Reach (step P) (init P) s tr) (hrest : AtRest P s)
    {t k : Nat} (hc : .call t k ∈ tr) (hr : ∀ b, .ret t k b ∉ tr) : (callNos tr).length < (k / P.n + 1) * P.n := by
  have hh := hist h
  have hb := reach_base hn h
  have hf := reach_few hn hm h
  rcases hh.open' t k hc with ⟨b, hb⟩ | ⟨busy, rfl⟩
  · exact absurd hb (hr b)
  have no : ∀ u, s.pc u ≠ .notify := by intro u hu; have := hrest u; simp [step, hu] at this
  have noa : ∀ u c, s.pc u ≠ .awake c := by intro u c hu; have := hrest u; simp only [step, hu] at this; split at this <;> simp at this
  rw [hh.nos, List.length_range]
  cases hp : s.pc t with
  | idle => exact absurd hp busy
  | awake c => exact absurd hp (noa t c)
  | notify => exact absurd hp (no t)
  | asleep c =>
    rcases Nat.lt_or_ge (s.idx t / P.n) (s.calls / P.n) with hlt | hge
    · obtain ⟨u, hu⟩ := hf.told t c hp hlt
      exact absurd hu (no u)
    · exact (Nat.div_lt_iff_lt_mul hn).1 (by omega)

/-- With more threads than the barrier waits for a thread can be left behind: `cycle_` is one bit, and a thread that is woken late finds it where it was,
after another batch. Here two other threads make the calls number 2 and 3 before thread 0, whose batch is complete, has the mutex. -/
theorem more_threads_stranded :
    ∃ s tr, Reach (step ⟨2, 3⟩) (init ⟨2, 3⟩) s tr ∧ AtRest ⟨2, 3⟩ s ∧ .call 0 0 ∈ tr ∧ (∀ b, .ret 0 0 b ∉ tr) ∧ (callNos tr).length = 4 := by
  have hrun : ∃ x, exec (step ⟨2, 3⟩) (init ⟨2, 3⟩) [.call 0, .call 1, .go 1, .call 1, .call 2, .go 2, .go 1, .go 0] = some x := ⟨_, rfl⟩
  obtain ⟨⟨s, tr⟩, hx⟩ := hrun
  have htr : tr = [.call 0 0, .call 1 1, .ret 1 1 true, .call 1 2, .call 2 3, .ret 2 3 true, .ret 1 2 false] := by
    have : (exec (step ⟨2, 3⟩) (init ⟨2, 3⟩) [.call 0, .call 1, .go 1, .call 1, .call 2, .go 2, .go 1, .go 0]).map (·.2) =
      some [.call 0 0, .call 1 1, .ret 1 1 true, .call 1 2, .call 2 3, .ret 2 3 true, .ret 1 2 false] := by decide +kernel
    rw [hx] at this; simpa using this
  have hpc : s.pc 0 = .asleep true ∧ s.pc 1 = .idle ∧ s.pc 2 = .idle := by
    have : (exec (step ⟨2, 3⟩) (init ⟨2, 3⟩) [.call 0, .call 1, .go 1, .call 1, .call 2, .go 2, .go 1, .go 0]).map (fun x => (x.1.pc 0, x.1.pc 1, x.1.pc 2)) =
      some (.asleep true, .idle, .idle) := by decide +kernel
    rw [hx] at this; simpa using this
  have hr := reach_of_exec hx
  refine ⟨s, tr, hr, ?_, ?_⟩
  · intro t
    have out := (reach_base (P := ⟨2, 3⟩) (by decide) hr).out t
    rcases t with _ | _ | _ | t
    · simp [step, hpc.1]
    · simp [step, hpc.2.1]
    · simp [step, hpc.2.2]
    · simp [step, out (by simp)]
  · subst htr; decide

/-- How much is left to do inside `wait()` without new calls and wakeups. -/
def work (P : Prog) (s : State) : Nat :=
  (P.threads + 1) * cnt (fun t => decide (s.pc t = .notify)) P.threads + cnt (fun t => match s.pc t with | .awake _ => true | _ => false) P.threads

theorem work_go {P : Prog} {s s' : State} {t : Nat} {o : List Obs} (hout : ∀ t, P.threads ≤ t → s.pc t = .idle) (hs : step P s (.go t) = some (s', o)) :
    work P s' < work P s := by
  have ht : t < P.threads := by
    rcases Nat.lt_or_ge t P.threads with h | h
    · exact h
    · simp [step, hout t h] at hs
  simp only [step] at hs
  split at hs
  · rename_i hp
    simp only [Option.some.injEq, Prod.mk.injEq] at hs; obtain ⟨rfl, rfl⟩ := hs
    have a := cnt_add (p := fun u => decide (wakeAll (upd s.pc t .idle) u = .notify)) (q := fun u => decide (s.pc u = .notify)) ht
      (by intro u hu
          change decide (s.pc u = .notify) = decide (wakeAll (upd s.pc t .idle) u = .notify)
          rw [wakeAll_upd, if_neg hu]; cases hq : s.pc u <;> simp [wakeAll, hq]) (by simp [wakeAll_upd]) (by simp [hp])
    have b := cnt_le (fun u => match wakeAll (upd s.pc t .idle) u with | .awake _ => true | _ => false) P.threads
    simp only [work, a, Nat.mul_add]
    omega
  · rename_i c hp
    split at hs <;> simp only [Option.some.injEq, Prod.mk.injEq] at hs <;> obtain ⟨rfl, rfl⟩ := hs
    all_goals
      simp only [work]
      rw [cnt_congr (p := fun u => decide (upd s.pc t _ u = .notify)) (q := fun u => decide (s.pc u = .notify))
        (by intro u _; simp only [upd_apply]; split <;> simp_all)]
    · have := cnt_add (p := fun u => match upd s.pc t (.asleep c) u with | .awake _ => true | _ => false)
        (q := fun u => match s.pc u with | .awake _ => true | _ => false) ht (by intro u hu; simp [hu]) (by simp) (by simp [hp])
      omega
    · have := cnt_add (p := fun u => match upd s.pc t .idle u with | .awake _ => true | _ => false)
        (q := fun u => match s.pc u with | .awake _ => true | _ => false) ht (by intro u hu; simp [hu]) (by simp) (by simp [hp])
      omega
  · simp at hs

/-- Without new calls and without further wakeups the threads come to rest, from wherever they are. -/
theorem comes_to_rest {P : Prog} (hn : 0 < P.n) {s : State} {tr : List Obs} (h : Reach (step P) (init P) s tr) {ts : List Nat} {s' : State} {o : List Obs}
    (he : exec (step P) s (ts.map .go) = some (s', o)) : ts.length ≤ (P.threads + 1) * P.threads + P.threads := by
  have gen : ∀ (ts : List Nat) s tr s' o, Reach (step P) (init P) s tr → exec (step P) s (ts.map .go) = some (s', o) → ts.length ≤ work P s := by
    intro ts
    induction ts with
    | nil => intros; simp
    | cons t ts ih =>
      intro s tr s' o hr he
      simp only [List.map_cons, exec] at he
      split at he
      · cases he
      · rename_i s1 o1 h1
        split at he
        · cases he
        · rename_i s2 o2 h3
          have := ih s1 _ _ _ (.tail _ hr h1) h3
          have := work_go (reach_base hn hr).out h1
          simp only [List.length_cons]; omega
  refine Nat.le_trans (gen ts s tr s' o h he) ?_
  exact Nat.add_le_add (Nat.mul_le_mul_left _ (cnt_le _ _)) (cnt_le _ _)

/-! ## Examples -/

-- `calls_numbered`, `returns_once`, `not_early`, `last_gets_true`: two threads, two batches; thread 0 is woken without a notification and waits on
example : ((exec (step ⟨2, 2⟩) (init ⟨2, 2⟩) [.call 0, .wake 0, .go 0, .call 1, .go 1, .call 1, .go 0, .call 0, .wake 1, .go 1, .go 0]).map (·.2)) =
    some [.call 0 0, .call 1 1, .ret 1 1 true, .call 1 2, .ret 0 0 false, .call 0 3, .ret 1 2 false, .ret 0 3 true] := by decide +kernel

-- `nobody_stranded`: at rest with an incomplete batch, call 2 has not returned
example : ((exec (step ⟨2, 2⟩) (init ⟨2, 2⟩) [.call 0, .call 1, .go 1, .go 0, .call 0]).map fun x => (x.2, x.1.pc 0, x.1.pc 1)) =
    some ([.call 0 0, .call 1 1, .ret 1 1 true, .ret 0 0 false, .call 0 2], .asleep false, .idle) := by decide +kernel

-- `comes_to_rest`: the last caller notifies, the two others return
example : ((exec (step ⟨3, 3⟩) (init ⟨3, 3⟩) [.call 0, .call 1, .call 2]).bind fun x => exec (step ⟨3, 3⟩) x.1 ([2, 0, 1].map .go)).map (·.2) =
    some [.ret 2 2 true, .ret 0 0 false, .ret 1 1 false] := by decide +kernel

end Verif.Props.ThreadBarrier
