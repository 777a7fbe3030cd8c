import Verif.Deadline

/-!
# Deadlines of timed operations: C81
-/

namespace Verif.Deadline

/-! ## Specification -/

/-- The call that fiber `f` is in, with the time at which it was made. -/
def after (f : Fid) (c : Option (Req × Int)) : Obs → Option (Req × Int)
  | .called g q n => if g = f then some (q, n) else c
  | .timeout g _ _ => if g = f then none else c
  | .done g => if g = f then none else c
  | _ => c

def pending (f : Fid) (tr : List Obs) : Option (Req × Int) := tr.foldl (after f) none

/-- A timeout may be reported when `steady_clock` shows `now` and the other clock `clk`. -/
def Honest (n0 now clk : Int) : Req → Prop
  | .for_ d k => n0 + d * k ≤ now
  | .until t => t ≤ now
  | .untilClock t => t ≤ clk

/-- A timeout was reported too early. -/
def Early (tr : List Obs) : Prop :=
  ∃ t1 t2 f now clk, tr = t1 ++ .timeout f now clk :: t2 ∧ ∃ q n0, pending f t1 = some (q, n0) ∧ ¬ Honest n0 now clk q

/-! ## Proofs -/

theorem pending_append (f : Fid) (t1 t2 : List Obs) : pending f (t1 ++ t2) = t2.foldl (after f) (pending f t1) := by
  simp [pending]

theorem snoc_split {α : Type} {tr t1 t2 : List α} {o x : α} (h : tr ++ [o] = t1 ++ x :: t2) :
    (o = x ∧ tr = t1 ∧ t2 = []) ∨ ∃ t3, t2 = t3 ++ [o] ∧ tr = t1 ++ x :: t3 := by
  rcases List.eq_nil_or_concat t2 with rfl | ⟨t3, y, rfl⟩
  · left
    obtain ⟨h1, h2⟩ := List.append_inj' h rfl
    simp only [List.cons.injEq, and_true] at h2
    exact ⟨h2, h1, rfl⟩
  · right
    rw [List.concat_eq_append, ← List.cons_append, ← List.append_assoc] at h
    obtain ⟨h1, h2⟩ := List.append_inj' h rfl
    simp only [List.cons.injEq, and_true] at h2
    subst h2
    exact ⟨t3, List.concat_eq_append, h1⟩

/-- The deadline of a call that waits is not too early; `cf`: the other clock is read first and never set back. -/
def Good (cf : Prop) (s : State) (n0 : Int) : Req → Pc → Prop
  | q, .enter q' => q' = q ∧ n0 ≤ s.now
  | q, .half t b r => q = .untilClock t ∧ (cf → b = false ∧ r ≤ s.clk)
  | .for_ d k, .waits dl => n0 + d * k ≤ dl
  | .until t, .waits dl => dl = t
  | .untilClock t, .waits dl => cf → t ≤ dl + s.off
  | .until _, .bad => False
  | _, .bad => True
  | _, .idle => False

structure Inv (cf : Prop) (s : State) (tr : List Obs) : Prop where
  ord : cf → s.steadyFirst = false
  nw  : s.wrap = false
  idl : ∀ f, s.pc f = .idle ↔ pending f tr = none
  ok  : ∀ f q n0, pending f tr = some (q, n0) → Good cf s n0 q (s.pc f)

theorem word_eq {x y : Int} (h : word false x = some y) : y = x := by
  simp only [word] at h
  split at h <;> simp_all

theorem ofDuration_eq {n d dl : Int} {k : Nat} (h : ofDuration false n d k = some dl) : dl = n + d * k := by
  simp only [ofDuration] at h
  split at h
  · rename_i x hx; rw [word_eq h, word_eq hx]
  · cases h

theorem ofClock_eq {st c t dl : Int} (h : ofClock false st c t = some dl) : dl = st + (t - c) := by
  simp only [ofClock] at h
  split at h
  · rename_i x hx; rw [word_eq h, word_eq hx]
  · cases h

/-- What a step does to the pending calls. -/
theorem inv_step {cf : Prop} {s s' : State} {tr o : List Obs} {e : Event} (h : Inv cf s tr)
    (hadj : ∀ n, Obs.adjusted n ∈ o → cf → 0 ≤ n) (hs : step s e = some (s', o)) : Inv cf s' (tr ++ o) := by
  obtain ⟨h1, h2, h3, h4⟩ := h
  -- a fiber moves to a new place, its pending call unchanged
  have move : ∀ (f : Fid) (p : Pc) (o : List Obs), p ≠ .idle → s.pc f ≠ .idle → (∀ g c, o.foldl (after g) c = c) →
      (∀ q n0, pending f tr = some (q, n0) → Good cf s n0 q p) → Inv cf { s with pc := upd s.pc f p } (tr ++ o) := by
    intro f p o hp hf ho hg
    have hpe : ∀ g, pending g (tr ++ o) = pending g tr := fun g => by rw [pending_append, ho]
    refine ⟨h1, h2, ?_, ?_⟩
    · intro g; rw [hpe]; simp only [upd_apply]
      split
      · rename_i e; subst e; exact ⟨fun h => absurd h hp, fun h => absurd ((h3 _).2 h) hf⟩
      · exact h3 g
    · intro g q n0 hq
      rw [hpe] at hq
      simp only [upd_apply]
      split
      · rename_i e; subst e; exact hg q n0 hq
      · exact h4 g q n0 hq
  have wt : ∀ (f : Fid) (x : Option Int), s.pc f ≠ .idle →
      (∀ dl, x = some dl → ∀ q n0, pending f tr = some (q, n0) → Good cf s n0 q (.waits dl)) →
      (x = none → ∀ q n0, pending f tr = some (q, n0) → Good cf s n0 q .bad) →
      Inv cf (s.wait f x).1 (tr ++ (s.wait f x).2) := by
    intro f x hf hx hb
    cases x with
    | none => exact move f _ _ (by simp) hf (fun g c => rfl) (hb rfl)
    | some dl => exact move f _ _ (by simp) hf (fun g c => rfl) (hx dl rfl)
  cases e with
  | call f q =>
    simp only [step] at hs
    split at hs <;> simp only [Option.some.injEq, Prod.mk.injEq, reduceCtorEq] at hs
    obtain ⟨rfl, rfl⟩ := hs
    refine ⟨h1, h2, ?_, ?_⟩
    · intro g
      simp only [pending_append, List.foldl_cons, List.foldl_nil, after, upd_apply]
      by_cases e : g = f
      · subst e; simp
      · simp [e, Ne.symm e, h3 g]
    · intro g q' n0 hq
      simp only [pending_append, List.foldl_cons, List.foldl_nil, after, upd_apply] at hq ⊢
      by_cases e : g = f
      · subst e
        simp only [if_true, Option.some.injEq, Prod.mk.injEq] at hq ⊢
        obtain ⟨rfl, rfl⟩ := hq
        cases q <;> simp [Good]
      · simp only [e, Ne.symm e, if_false] at hq ⊢
        exact h4 g q' n0 hq
  | run f =>
    simp only [step] at hs
    split at hs <;> simp only [Option.some.injEq, reduceCtorEq] at hs
    · rename_i d k hp
      have := wt f (ofDuration s.wrap s.now d k) (by simp [hp]) (by
        intro dl hd q n0 hq
        have := h4 f q n0 hq
        rw [hp] at this; simp only [Good] at this
        obtain ⟨rfl, h5⟩ := this
        rw [h2] at hd; rw [ofDuration_eq hd]; simp only [Good]; omega) (by
        intro _ q n0 hq
        have := h4 f q n0 hq
        rw [hp] at this; simp only [Good] at this
        obtain ⟨rfl, h5⟩ := this
        trivial)
      rw [hs] at this; exact this
    · rename_i t hp
      have := wt f (some t) (by simp [hp]) (by
        intro dl hd q n0 hq
        have := h4 f q n0 hq
        rw [hp] at this; simp only [Good] at this
        obtain ⟨rfl, h5⟩ := this
        cases hd; simp only [Good]) (by simp)
      rw [hs] at this; exact this
    · rename_i t hp
      simp only [Prod.mk.injEq] at hs
      obtain ⟨rfl, rfl⟩ := hs
      refine move f _ _ (by simp) (by simp [hp]) (fun g c => rfl) ?_
      intro q n0 hq
      have := h4 f q n0 hq
      rw [hp] at this; simp only [Good] at this
      obtain ⟨rfl, h5⟩ := this
      simp only [Good, true_and]
      intro hc
      exact ⟨h1 hc, by rw [h1 hc]; simp⟩
    · rename_i t r hp
      have := wt f (ofClock s.wrap r s.clk t) (by simp [hp]) (by
        intro dl hd q n0 hq
        have := h4 f q n0 hq
        rw [hp] at this; simp only [Good] at this
        obtain ⟨rfl, h5⟩ := this
        simp only [Good]; intro hc; exact absurd (h5 hc).1 (by simp)) (by
        intro _ q n0 hq
        have := h4 f q n0 hq
        rw [hp] at this; simp only [Good] at this
        obtain ⟨rfl, h5⟩ := this
        trivial)
      rw [hs] at this; exact this
    · rename_i t r hp
      have := wt f (ofClock s.wrap s.now r t) (by simp [hp]) (by
        intro dl hd q n0 hq
        have := h4 f q n0 hq
        rw [hp] at this; simp only [Good] at this
        obtain ⟨rfl, h5⟩ := this
        rw [h2] at hd; rw [ofClock_eq hd]
        simp only [Good]; intro hc
        have := (h5 hc).2; simp only [State.clk] at this; omega) (by
        intro _ q n0 hq
        have := h4 f q n0 hq
        rw [hp] at this; simp only [Good] at this
        obtain ⟨rfl, h5⟩ := this
        trivial)
      rw [hs] at this; exact this
  | expire f =>
    simp only [step] at hs
    split at hs
    case h_2 => cases hs
    rename_i dl hp
    split at hs <;> simp only [Option.some.injEq, Prod.mk.injEq, reduceCtorEq] at hs
    obtain ⟨rfl, rfl⟩ := hs
    refine ⟨h1, h2, ?_, ?_⟩
    · intro g
      simp only [pending_append, List.foldl_cons, List.foldl_nil, after, upd_apply]
      by_cases e : g = f
      · subst e; simp
      · simp [e, Ne.symm e, h3 g]
    · intro g q' n0 hq
      simp only [pending_append, List.foldl_cons, List.foldl_nil, after, upd_apply] at hq ⊢
      by_cases e : g = f
      · subst e; simp at hq
      · simp only [e, Ne.symm e, if_false] at hq ⊢
        exact h4 g q' n0 hq
  | finish f =>
    simp only [step] at hs
    split at hs <;> simp only [Option.some.injEq, Prod.mk.injEq, reduceCtorEq] at hs
    obtain ⟨rfl, rfl⟩ := hs
    refine ⟨h1, h2, ?_, ?_⟩
    · intro g
      simp only [pending_append, List.foldl_cons, List.foldl_nil, after, upd_apply]
      by_cases e : g = f
      · subst e; simp
      · simp [e, Ne.symm e, h3 g]
    · intro g q' n0 hq
      simp only [pending_append, List.foldl_cons, List.foldl_nil, after, upd_apply] at hq ⊢
      by_cases e : g = f
      · subst e; simp at hq
      · simp only [e, Ne.symm e, if_false] at hq ⊢
        exact h4 g q' n0 hq
  | tick n =>
    simp only [step, Option.some.injEq, Prod.mk.injEq] at hs
    obtain ⟨rfl, rfl⟩ := hs
    simp only [List.append_nil]
    refine ⟨h1, h2, h3, ?_⟩
    intro g q n0 hq
    have := h4 g q n0 hq
    generalize s.pc g = p at this ⊢
    cases p <;> cases q <;> simp only [Good, State.clk] at this ⊢ <;>
      first
      | exact this
      | exact ⟨this.1, by omega⟩
      | exact ⟨this.1, fun hc => ⟨(this.2 hc).1, by have := (this.2 hc).2; omega⟩⟩
  | adjust n =>
    simp only [step, Option.some.injEq, Prod.mk.injEq] at hs
    obtain ⟨rfl, rfl⟩ := hs
    have hn := hadj n (by simp)
    have hpe : ∀ g, pending g (tr ++ [.adjusted n]) = pending g tr := fun g => by simp [pending_append, after]
    refine ⟨h1, h2, by simpa only [hpe] using h3, ?_⟩
    intro g q n0 hq
    rw [hpe] at hq
    have := h4 g q n0 hq
    generalize s.pc g = p at this ⊢
    cases p <;> cases q <;> simp only [Good, State.clk] at this ⊢ <;>
      first
      | exact this
      | exact ⟨this.1, fun hc => ⟨(this.2 hc).1, by have := (this.2 hc).2; have := hn hc; omega⟩⟩
      | exact fun hc => by have := this hc; have := hn hc; omega

theorem reach_inv {cf : Prop} {sf : Bool} {now off : Int} {s : State} {tr : List Obs}
    (h : Reach step (init false sf now off) s tr) (hcf : cf → sf = false) :
    (∀ n, Obs.adjusted n ∈ tr → cf → 0 ≤ n) → Inv cf s tr := by
  refine Reach.inv (fun s tr => (∀ n, Obs.adjusted n ∈ tr → cf → 0 ≤ n) → Inv cf s tr) ?_ ?_ h
  · intro _; exact ⟨hcf, rfl, by simp [init, pending], by simp [pending]⟩
  · intro s tr e s' o _ hi hs ha
    exact inv_step (hi fun n hn => ha n (by simp [hn])) (fun n hn => ha n (by simp [hn])) hs

/-- When a timeout is reported, the deadline has passed. -/
theorem honest_step {cf : Prop} {s s' : State} {tr o : List Obs} {e : Event} (h : Inv cf s tr)
    (hs : step s e = some (s', o)) {f : Fid} {now clk : Int} (ho : Obs.timeout f now clk ∈ o) :
    o = [.timeout f now clk] ∧ ∃ q n0, pending f tr = some (q, n0) ∧ ((∃ t, q = .untilClock t) → cf → Honest n0 now clk q) ∧
      ((∀ t, q ≠ .untilClock t) → Honest n0 now clk q) := by
  obtain ⟨h1, h2, h3, h4⟩ := h
  have hw : ∀ x, Obs.timeout f now clk ∉ (s.wait f x).2 := by
    intro x; cases x <;> simp [State.wait]
  cases e with
  | expire g =>
    simp only [step] at hs
    split at hs
    case h_2 => cases hs
    rename_i dl hp
    split at hs <;> simp only [Option.some.injEq, Prod.mk.injEq, reduceCtorEq] at hs
    rename_i hdl
    obtain ⟨rfl, rfl⟩ := hs
    simp only [List.mem_singleton, Obs.timeout.injEq] at ho
    obtain ⟨rfl, rfl, rfl⟩ := ho
    refine ⟨rfl, ?_⟩
    cases hq : pending f tr with
    | none => rw [(h3 f).2 hq] at hp; cases hp
    | some x =>
      obtain ⟨q, n0⟩ := x
      have := h4 f q n0 hq
      rw [hp] at this
      refine ⟨q, n0, rfl, ?_, ?_⟩
      · rintro ⟨t, rfl⟩ hc
        have := this hc
        simp only [Honest, State.clk]; omega
      · intro hne
        cases q with
        | for_ d k => simp only [Good] at this; simp only [Honest]; omega
        | «until» t => simp only [Good] at this; simp only [Honest]; omega
        | untilClock t => exact absurd rfl (hne t)
  | run g =>
    simp only [step] at hs
    exfalso
    split at hs <;> simp only [Option.some.injEq, reduceCtorEq] at hs
    all_goals
      first
      | (simp only [Prod.mk.injEq] at hs; obtain ⟨rfl, rfl⟩ := hs; simp at ho; done)
      | (generalize hx : State.wait s g _ = y at hs
         subst hs
         revert hx; intro hx
         simp only [State.wait] at hx
         (try split at hx) <;> cases hx <;> simp at ho)
  | call g q =>
    simp only [step] at hs
    split at hs <;> simp only [Option.some.injEq, Prod.mk.injEq, reduceCtorEq] at hs
    obtain ⟨rfl, rfl⟩ := hs; simp at ho
  | finish g =>
    simp only [step] at hs
    split at hs <;> simp only [Option.some.injEq, Prod.mk.injEq, reduceCtorEq] at hs
    obtain ⟨rfl, rfl⟩ := hs; simp at ho
  | tick n => simp only [step, Option.some.injEq, Prod.mk.injEq] at hs; obtain ⟨rfl, rfl⟩ := hs; simp at ho
  | adjust n => simp only [step, Option.some.injEq, Prod.mk.injEq] at hs; obtain ⟨rfl, rfl⟩ := hs; simp at ho

/-- What the whole trace says, whatever the order in which the clocks are read. -/
theorem all_honest {cf : Prop} {sf : Bool} {now off : Int} {s : State} {tr : List Obs}
    (h : Reach step (init false sf now off) s tr) (hcf : cf → sf = false) :
    (∀ n, Obs.adjusted n ∈ tr → cf → 0 ≤ n) → ∀ t1 t2 f now clk, tr = t1 ++ .timeout f now clk :: t2 →
      ∃ q n0, pending f t1 = some (q, n0) ∧ ((∃ t, q = .untilClock t) → cf → Honest n0 now clk q) ∧
        ((∀ t, q ≠ .untilClock t) → Honest n0 now clk q) := by
  refine Reach.inv (fun s tr => (∀ n, Obs.adjusted n ∈ tr → cf → 0 ≤ n) → ∀ t1 t2 f now clk,
    tr = t1 ++ .timeout f now clk :: t2 → ∃ q n0, pending f t1 = some (q, n0) ∧
      ((∃ t, q = .untilClock t) → cf → Honest n0 now clk q) ∧ ((∀ t, q ≠ .untilClock t) → Honest n0 now clk q)) ?_ ?_ h
  · intro _ t1 t2 f now clk ht; simp at ht
  · intro s tr e s' o hr hi hs ha t1 t2 f now clk ht
    have ha' : ∀ n, Obs.adjusted n ∈ tr → cf → 0 ≤ n := fun n hn => ha n (by simp [hn])
    have hin := reach_inv hr hcf ha'
    by_cases ho : Obs.timeout f now clk ∈ o
    · obtain ⟨rfl, h1⟩ := honest_step hin hs ho
      rcases snoc_split ht with ⟨-, rfl, rfl⟩ | ⟨t3, rfl, h2⟩
      · exact h1
      · exact hi ha' t1 t3 f now clk h2
    · rcases List.append_eq_append_iff.1 ht with ⟨a, h1, h2⟩ | ⟨a, h1, h2⟩
      · exact absurd (by rw [h2]; simp) ho
      · cases a with
        | nil => simp only [List.nil_append] at h2; exact absurd (by rw [← h2]; simp) ho
        | cons x a =>
          simp only [List.cons_append, List.cons.injEq] at h2
          obtain ⟨rfl, -⟩ := h2
          exact hi ha' t1 a f now clk h1

/-- **C81 (what holds), not early.** If the other clock is read before `steady_clock` and is never set back, no timeout is reported
too early, whatever the durations, time points and schedule. (An overflow is not a timeout here: see `no_overflow_partial`.)

Missing for C81: the other order of evaluation (`early_by_order`) and clocks that are set back (`early_by_adjustment`). -/
theorem never_early_partial {now off : Int} {s : State} {tr : List Obs} (h : Reach step (init false false now off) s tr)
    (hadj : ∀ n, Obs.adjusted n ∈ tr → 0 ≤ n) : ¬ Early tr := by
  rintro ⟨t1, t2, f, n, c, rfl, q, n0, hq, hb⟩
  obtain ⟨q', n0', h1, h2, h3⟩ := all_honest (cf := True) h (fun _ => rfl) (fun n hn _ => hadj n hn) t1 t2 f n c rfl
  rw [hq] at h1; cases h1
  by_cases hc : ∃ t, q = .untilClock t
  · exact hb (h2 hc trivial)
  · exact hb (h3 fun t ht => hc ⟨t, ht⟩)

/-- **C81 (what holds), not early.** In calls with a duration, or with a time point of `steady_clock`, no timeout is reported too
early, in whatever order the clocks are read and whatever happens to the other one. -/
theorem steady_never_early {sf : Bool} {now off : Int} {s : State} {tr t1 t2 : List Obs}
    (h : Reach step (init false sf now off) s tr) {f : Fid} {n c n0 : Int} {q : Req}
    (htr : tr = t1 ++ .timeout f n c :: t2) (hq : pending f t1 = some (q, n0)) :
    (∀ d k, q = .for_ d k → n0 + d * k ≤ n) ∧ (∀ t, q = .until t → t ≤ n) := by
  obtain ⟨q', n0', h1, -, h3⟩ := all_honest (cf := False) h (fun h => h.elim) (fun _ _ h => h.elim) t1 t2 f n c htr
  rw [hq] at h1; cases h1
  constructor
  · rintro d k rfl; exact h3 (by simp)
  · rintro t rfl; exact h3 (by simp)

/-- **C81 is false of the code (order of evaluation).** If `steady_clock` is read first, the time between the two readings is
subtracted from the waiting time. Here the other clock always shows the same as `steady_clock`. -/
theorem early_by_order : ∃ s tr, Reach step (init false true 1000 0) s tr ∧ Early tr ∧ ∀ n, Obs.adjusted n ∉ tr := by
  refine ⟨_, _, reach_of_exec (es := [.call 1 (.untilClock 1010), .run 1, .tick 3, .run 1, .tick 4, .expire 1]) rfl, ?_,
    by simp⟩
  exact ⟨[.called 1 (.untilClock 1010) 1000], [], 1, 1007, 1007, by decide, .untilClock 1010, 1000, by decide, by simp [Honest]⟩

/-- **C81 is false of the code (clocks that are set).** The other clock is set back while the fiber waits. -/
theorem early_by_adjustment : ∃ s tr, Reach step (init false false 1000 0) s tr ∧ Early tr := by
  refine ⟨_, _, reach_of_exec (es := [.call 1 (.untilClock 1010), .run 1, .run 1, .adjust (-500), .tick 10, .expire 1]) rfl, ?_⟩
  exact ⟨[.called 1 (.untilClock 1010) 1000, .adjusted (-500)], [], 1, 1010, 510, by decide, .untilClock 1010, 1000, by decide,
    by simp [Honest]⟩

/-! ### Overflow -/

/-- About 73 years. -/
def big : Int := 2305843009213693952

/-- A request within `big` nanoseconds. -/
def Req.Small : Req → Prop
  | .for_ d k => -big ≤ d * k ∧ d * k ≤ big
  | .until _ => True
  | .untilClock t => -big ≤ t ∧ t ≤ big

structure InB (off : Int) (s : State) : Prop where
  off : s.off = off
  nn : 0 ≤ s.now
  pc : ∀ f, match s.pc f with
    | .enter q => q.Small
    | .half t b r => -big ≤ t ∧ t ≤ big ∧ (s.now ≤ big → -big ≤ r ∧ r ≤ 2 * big ∧ (b = true → 0 ≤ r ∧ r ≤ big))
    | _ => True

theorem word_fits {x : Int} (w : Bool) (h1 : -4 * big ≤ x) (h2 : x < 4 * big) : word w x = some x := by
  simp only [big] at h1 h2
  have h3 : -9223372036854775808 ≤ x ∧ x ≤ 9223372036854775807 := ⟨by omega, by omega⟩
  simp [word, fits, h3]

theorem inB_step {off : Int} {s s' : State} {o : List Obs} {e : Event} (ho : -big ≤ off ∧ off ≤ big) (h : InB off s)
    (hs : step s e = some (s', o)) (hadj : ∀ n, Obs.adjusted n ∉ o) (hq : ∀ f q n, Obs.called f q n ∈ o → q.Small)
    (hnow : s'.now ≤ big) : InB off s' ∧ ∀ f, Obs.ub f ∉ o := by
  obtain ⟨h1, h2, h3⟩ := h
  have wt : ∀ (f : Fid) (x : Option Int), (∃ y, x = some y) →
      InB off (s.wait f x).1 ∧ ∀ g, Obs.ub g ∉ (s.wait f x).2 := by
    rintro f _ ⟨y, rfl⟩
    refine ⟨⟨h1, h2, ?_⟩, by simp [State.wait]⟩
    intro g
    simp only [State.wait, upd_apply]
    by_cases e : g = f
    · simp [e]
    · simpa [e] using h3 g
  have mv : ∀ (f : Fid) (p : Pc), p = .idle → InB off { s with pc := upd s.pc f p } := by
    rintro f _ rfl
    refine ⟨h1, h2, ?_⟩
    intro g
    simp only [upd_apply]
    by_cases e : g = f
    · simp [e]
    · simpa [e] using h3 g
  cases e with
  | call f q =>
    simp only [step] at hs
    split at hs <;> simp only [Option.some.injEq, Prod.mk.injEq, reduceCtorEq] at hs
    obtain ⟨rfl, rfl⟩ := hs
    refine ⟨⟨h1, h2, ?_⟩, by simp⟩
    intro g
    simp only [upd_apply]
    by_cases e : g = f
    · simpa [e] using hq f q s.now (by simp)
    · simpa [e] using h3 g
  | run f =>
    have h4 := h3 f
    have hnow' : s.now ≤ big := by
      have : s'.now = s.now := by
        simp only [step] at hs
        split at hs <;> simp only [Option.some.injEq, reduceCtorEq] at hs
        all_goals first
          | (simp only [Prod.mk.injEq] at hs; obtain ⟨rfl, -⟩ := hs; rfl)
          | (generalize hx : State.wait s f _ = y at hs
             subst hs
             simp only [State.wait] at hx
             (try split at hx) <;> cases hx <;> rfl)
      omega
    simp only [step] at hs
    split at hs <;> simp only [Option.some.injEq, reduceCtorEq] at hs
    · rename_i d k hp
      simp only [hp, Req.Small] at h4
      have := wt f (ofDuration s.wrap s.now d k) (by
        simp only [ofDuration]
        rw [word_fits _ (by simp only [big] at *; omega) (by simp only [big] at *; omega)]
        exact ⟨_, word_fits _ (by simp only [big] at *; omega) (by simp only [big] at *; omega)⟩)
      rw [hs] at this; exact this
    · rename_i t hp
      have := wt f (some t) ⟨_, rfl⟩
      rw [hs] at this; exact this
    · rename_i t hp
      simp only [hp, Req.Small] at h4
      simp only [Prod.mk.injEq] at hs
      obtain ⟨rfl, rfl⟩ := hs
      refine ⟨⟨h1, h2, ?_⟩, by simp⟩
      intro g
      simp only [upd_apply]
      by_cases e : g = f
      · simp only [e, if_true]
        refine ⟨h4.1, h4.2, fun _ => ?_⟩
        cases s.steadyFirst <;> simp only [State.clk, big] at * <;> simp <;> omega
      · simpa [e] using h3 g
    · rename_i t r hp
      simp only [hp] at h4
      obtain ⟨h5, h6, h7⟩ := h4
      have h7 := h7 hnow'
      have h8 := h7.2.2 trivial
      have := wt f (ofClock s.wrap r s.clk t) (by
        simp only [ofClock]
        rw [word_fits _ (by simp only [State.clk, big] at *; omega) (by simp only [State.clk, big] at *; omega)]
        exact ⟨_, word_fits _ (by simp only [State.clk, big] at *; omega) (by simp only [State.clk, big] at *; omega)⟩)
      rw [hs] at this; exact this
    · rename_i t r hp
      simp only [hp] at h4
      obtain ⟨h5, h6, h7⟩ := h4
      have h7 := h7 hnow'
      have := wt f (ofClock s.wrap s.now r t) (by
        simp only [ofClock]
        rw [word_fits _ (by simp only [big] at *; omega) (by simp only [big] at *; omega)]
        exact ⟨_, word_fits _ (by simp only [big] at *; omega) (by simp only [big] at *; omega)⟩)
      rw [hs] at this; exact this
  | expire f =>
    simp only [step] at hs
    split at hs
    case h_2 => cases hs
    split at hs <;> simp only [Option.some.injEq, Prod.mk.injEq, reduceCtorEq] at hs
    obtain ⟨rfl, rfl⟩ := hs
    exact ⟨mv f _ rfl, by simp⟩
  | finish f =>
    simp only [step] at hs
    split at hs <;> simp only [Option.some.injEq, Prod.mk.injEq, reduceCtorEq] at hs
    obtain ⟨rfl, rfl⟩ := hs
    exact ⟨mv f _ rfl, by simp⟩
  | tick n =>
    simp only [step, Option.some.injEq, Prod.mk.injEq] at hs
    obtain ⟨rfl, rfl⟩ := hs
    simp only at hnow
    refine ⟨⟨h1, by simp only; omega, ?_⟩, by simp⟩
    intro g
    have h4 := h3 g
    revert h4
    simp only
    split <;> simp_all
    intro _ _ h6
    exact h6 (by omega)
  | adjust n =>
    simp only [step, Option.some.injEq, Prod.mk.injEq] at hs
    obtain ⟨rfl, rfl⟩ := hs
    exact absurd (List.mem_singleton.2 rfl) (hadj n)

theorem now_mono {s0 s : State} {tr : List Obs} (h : Reach step s0 s tr) : s0.now ≤ s.now := by
  refine Reach.inv (fun s _ => s0.now ≤ s.now) (Int.le_refl _) ?_ h
  intro s tr e s' o _ hi hs
  suffices s.now ≤ s'.now by omega
  cases e with
  | tick n => simp only [step, Option.some.injEq, Prod.mk.injEq] at hs; obtain ⟨rfl, -⟩ := hs; simp only; omega
  | adjust n => simp only [step, Option.some.injEq, Prod.mk.injEq] at hs; obtain ⟨rfl, -⟩ := hs; simp
  | _ =>
    simp only [step] at hs
    split at hs <;> (try split at hs) <;> simp only [Option.some.injEq, reduceCtorEq] at hs
    all_goals first
      | (simp only [Prod.mk.injEq] at hs; obtain ⟨rfl, -⟩ := hs; simp; done)
      | (generalize hx : State.wait s _ _ = y at hs
         subst hs
         simp only [State.wait] at hx
         (try split at hx) <;> cases hx <;> simp)

/-- **C81 (what holds), no overflow.** As long as the readings of the clocks, the durations and the time points stay within 73
years and nobody sets the other clock, no computation overflows.

Missing for C81: larger values, such as `duration::max()` for waiting without limit (`max_overflows`, `max_times_out_at_once`). -/
theorem no_overflow_partial {sf : Bool} {now off : Int} {s : State} {tr : List Obs} (h0 : 0 ≤ now)
    (ho : -big ≤ off ∧ off ≤ big) (h : Reach step (init false sf now off) s tr) (hnow : s.now ≤ big)
    (hadj : ∀ n, Obs.adjusted n ∉ tr) (hq : ∀ f q n, Obs.called f q n ∈ tr → q.Small) (f : Fid) : Obs.ub f ∉ tr := by
  have key := Reach.inv (fun s tr => s.now ≤ big → (∀ n, Obs.adjusted n ∉ tr) → (∀ f q n, Obs.called f q n ∈ tr → q.Small) →
    InB off s ∧ ∀ f, Obs.ub f ∉ tr) (s₀ := init false sf now off) (step := step) ?_ ?_ h
  · exact (key hnow hadj hq).2 f
  · intro _ _ _; exact ⟨⟨rfl, h0, by simp [init]⟩, by simp⟩
  · intro s tr e s' o hr hi hs hn ha hc
    have hm : s.now ≤ s'.now := now_mono (.tail e .refl hs)
    obtain ⟨h1, h2⟩ := hi (by omega) (fun n hn => ha n (by simp [hn])) (fun f q n hn => hc f q n (by simp [hn]))
    obtain ⟨h3, h4⟩ := inB_step ho h1 hs (fun n hn => ha n (by simp [hn])) (fun f q n hn => hc f q n (by simp [hn])) hn
    exact ⟨h3, fun f hm => by
      rcases List.mem_append.1 hm with h | h
      · exact h2 f h
      · exact h4 f h⟩

/-- **C81 is false of the code (overflow).** `sleep_for( nanoseconds::max() )`, `try_lock_for( hours::max() )`: undefined behaviour. -/
theorem max_overflows : ∃ s tr, Reach step (init false false 1 0) s tr ∧ Obs.ub 1 ∈ tr ∧ Obs.ub 2 ∈ tr :=
  ⟨_, _, reach_of_exec (es := [.call 1 (.for_ 9223372036854775807 1), .run 1,
    .call 2 (.for_ 9223372036854775807 3600000000000), .run 2]) rfl, by decide, by decide⟩

/-- **C81 is false of the code (overflow).** What happens in practice: a wait of 292 years times out at once. -/
theorem max_times_out_at_once : ∃ s tr, Reach step (init true false 1 0) s tr ∧
    tr = [.called 1 (.for_ 9223372036854775807 1) 1, .timeout 1 1 1] ∧ Early tr := by
  refine ⟨_, _, reach_of_exec (es := [.call 1 (.for_ 9223372036854775807 1), .run 1, .expire 1]) rfl, by decide, ?_⟩
  exact ⟨[.called 1 (.for_ 9223372036854775807 1) 1], [], 1, 1, 1, by decide, .for_ 9223372036854775807 1, 1, by decide, by simp [Honest]⟩

/-! ### Late -/

/-- **C81 (what holds), not late.** A call with a time point of `steady_clock` that has started to wait can end with a timeout as soon as
that time has come.

Missing for C81: other clocks (`late_by_adjustment`). -/
theorem not_late_partial {sf : Bool} {now off : Int} {s : State} {tr : List Obs}
    (h : Reach step (init false sf now off) s tr) {f : Fid} {t n0 : Int} (hq : pending f tr = some (.until t, n0))
    (ht : t ≤ s.now) : ∃ es s', exec step s es = some (s', [.timeout f s.now s.clk]) ∧ s'.now = s.now := by
  have key : s.pc f = .enter (.until t) ∨ s.pc f = .waits t := by
    have := (reach_inv (cf := False) h (fun h => h.elim) (fun _ _ h => h.elim)).ok f _ n0 hq
    cases hp : s.pc f <;> simp_all [Good]
  rcases key with hp | hp
  · exact ⟨[.run f, .expire f], { s with pc := upd (upd s.pc f (.waits t)) f .idle },
      by simp [exec, step, hp, State.wait, ht, State.clk], rfl⟩
  · exact ⟨[.expire f], { s with pc := upd s.pc f .idle }, by simp [exec, step, hp, ht, State.clk], rfl⟩

/-- **C81 is false of the code (clocks that are set).** The other clock is set forward by ten years while the fiber waits: it has
passed the time the fiber waits for, but the fiber goes on waiting. -/
theorem late_by_adjustment : ∃ s tr, Reach step (init false false 1000 0) s tr ∧
    pending 1 tr = some (.untilClock 2000, 1000) ∧ s.clk = 315360000000001000 ∧
    ∀ n : Nat, n < 1000 → ∃ s', step s (.tick n) = some (s', []) ∧ step s' (.expire 1) = none := by
  refine ⟨_, _, reach_of_exec (es := [.call 1 (.untilClock 2000), .run 1, .run 1, .adjust 315360000000000000]) rfl, by decide,
    by decide, ?_⟩
  intro n hn
  refine ⟨_, rfl, ?_⟩
  have : ¬ (2000 : Int) ≤ 1000 + n := by omega
  simpa [step, State.wait, init, ofClock, word, fits, State.clk] using this

/-! ## The hypotheses are met -/

/-- A lock attempt of two hours and a sleep until a time of another clock run into their timeouts, on time. -/
example : ∃ s tr, Reach step (init false false 1000 5000) s tr ∧ (∀ n, Obs.adjusted n ∈ tr → 0 ≤ n) ∧
    Obs.timeout 1 7200000001000 7200000006017 ∈ tr ∧ Obs.timeout 2 7200000001017 7200000006034 ∈ tr ∧ s.now ≤ big ∧
    pending 1 (tr.take 3) = some (.for_ 2 3600000000000, 1000) := by
  refine ⟨_, _, reach_of_exec (es := [.call 1 (.for_ 2 3600000000000), .call 2 (.untilClock 7200000006000), .run 1, .run 2,
    .tick 17, .adjust 17, .run 2, .tick 7199999999983, .expire 1, .tick 17, .expire 2]) rfl, ?_, by decide, by decide, by decide,
    by decide⟩
  intro n hn; simp at hn; omega

example : (∀ f q n, Obs.called f q n ∈ [Obs.called 1 (.for_ 2 3600000000000) 1000] → q.Small) ∧ ¬ (Req.for_ 9223372036854775807 1).Small := by
  constructor
  · intro f q n h; simp at h; obtain ⟨-, rfl, -⟩ := h; simp [Req.Small, big]
  · simp [Req.Small, big]

example : ∃ s tr, Reach step (init false true 1000 0) s tr ∧ pending 1 tr = some (.until 1500, 1000) ∧ (1500 : Int) ≤ s.now :=
  ⟨_, _, reach_of_exec (es := [.call 1 (.until 1500), .tick 600]) rfl, by decide, by decide⟩

end Verif.Deadline
