import Verif.Pipe

/-!
# C129: receivers that loop until the channel is closed get all values, each one once and in order, and end
-/

namespace Verif.Props.Pipe
open Verif Verif.Pipe

/-- The values taken, in the order of time. -/
def taken : List Obs → List Nat
  | [] => []
  | .takes _ v :: tr => v :: taken tr
  | _ :: tr => taken tr

/-- The values taken by receiver `i`. -/
def takenBy (i : Nat) : List Obs → List Nat
  | [] => []
  | .takes j v :: tr => if j = i then v :: takenBy i tr else takenBy i tr
  | _ :: tr => takenBy i tr

/-- The values printed by receiver `i`. -/
def printedBy (i : Nat) : List Obs → List Nat
  | [] => []
  | .prints j v :: tr => if j = i then v :: printedBy i tr else printedBy i tr
  | _ :: tr => printedBy i tr

theorem taken_append (a b : List Obs) : taken (a ++ b) = taken a ++ taken b := by
  induction a with
  | nil => rfl
  | cons o a ih => cases o <;> simp [taken, ih]

theorem takenBy_append (i : Nat) (a b : List Obs) : takenBy i (a ++ b) = takenBy i a ++ takenBy i b := by
  induction a with
  | nil => rfl
  | cons o a ih => cases o <;> simp [takenBy, ih]; split <;> simp

theorem printedBy_append (i : Nat) (a b : List Obs) : printedBy i (a ++ b) = printedBy i a ++ printedBy i b := by
  induction a with
  | nil => rfl
  | cons o a ih => cases o <;> simp [printedBy, ih]; split <;> simp

/-- What the sender has still to send. -/
def unsent : Snd → List Nat
  | .next rest => rest
  | .wait rest => rest
  | .done => []

/-- What a receiver has taken and not printed. -/
def held : Rcv → List Nat
  | .print v => [v]
  | _ => []

structure Inv (P : Prog) (s : State) (tr : List Obs) : Prop where
  all : taken tr ++ s.q ++ unsent s.snd = P.vals
  each : ∀ i, takenBy i tr = printedBy i tr ++ held (s.rcv i)
  closed : s.closed = true ↔ s.snd = .done
  ended : ∀ i, s.rcv i = .done → s.closed = true ∧ s.q = []
  ends : ∀ i, .ends i ∈ tr ↔ s.rcv i = .done

theorem inv_init (P : Prog) : Inv P (init P) [] := by
  constructor <;> simp [init, taken, takenBy, printedBy, held, unsent]

theorem inv_step {P : Prog} {s s' : State} {tr o : List Obs} {e : Event} (h : Inv P s tr) (hs : step P s e = some (s', o)) : Inv P s' (tr ++ o) := by
  obtain ⟨h1, h2, h3, h4, h5⟩ := h
  cases e with
  | snd =>
    simp only [step] at hs
    split at hs
    · rename_i hp
      simp only [Option.some.injEq, Prod.mk.injEq] at hs; obtain ⟨rfl, rfl⟩ := hs
      rw [hp] at h1 h3
      constructor <;> simp_all [unsent]
    · rename_i v rest hp
      have hc : s.closed = false := by
        cases hc : s.closed
        · rfl
        · rw [hp] at h3; exact absurd (h3.1 hc) (by simp)
      split at hs
      · split at hs <;> simp only [Option.some.injEq, Prod.mk.injEq, reduceCtorEq] at hs; obtain ⟨rfl, rfl⟩ := hs
        rw [hp] at h1
        constructor <;> simp_all [unsent]
      · split at hs <;> simp only [Option.some.injEq, Prod.mk.injEq, reduceCtorEq] at hs; obtain ⟨rfl, rfl⟩ := hs
        rw [hp] at h1
        constructor <;> simp_all [unsent]
    · rename_i rest hp
      split at hs <;> simp only [Option.some.injEq, Prod.mk.injEq, reduceCtorEq] at hs; obtain ⟨rfl, rfl⟩ := hs
      rw [hp] at h1 h3
      constructor <;> simp_all [unsent]
    · simp at hs
  | rcv i =>
    simp only [step] at hs
    split at hs
    · split at hs
      · rename_i hp
        split at hs
        · rename_i v q hq
          simp only [Option.some.injEq, Prod.mk.injEq] at hs; obtain ⟨rfl, rfl⟩ := hs
          constructor
          · rw [taken_append]; rw [hq] at h1; simpa [taken] using h1
          · intro j; rw [takenBy_append, printedBy_append, h2 j]
            by_cases e : j = i
            · subst e; simp [hp, held, takenBy, printedBy]
            · simp [upd_apply, e, takenBy, printedBy, Ne.symm e]
          · exact h3
          · intro j hj
            by_cases e : j = i
            · subst e; simp at hj
            · simp only [upd_apply, if_neg e] at hj; have := (h4 j hj).2; rw [hq] at this; cases this
          · intro j
            by_cases e : j = i
            · subst e; have := h5 j; simp [hp] at this; simp [this]
            · simp [upd_apply, e, h5 j]
        · rename_i hq
          split at hs <;> simp only [Option.some.injEq, Prod.mk.injEq, reduceCtorEq] at hs; obtain ⟨rfl, rfl⟩ := hs
          rename_i hcl
          constructor
          · rw [taken_append]; simpa [taken] using h1
          · intro j; rw [takenBy_append, printedBy_append, h2 j]
            by_cases e : j = i
            · subst e; simp [hp, held, takenBy, printedBy]
            · simp [upd_apply, e, takenBy, printedBy]
          · exact h3
          · intro j _; exact ⟨hcl, hq⟩
          · intro j
            by_cases e : j = i
            · subst e; simp
            · simp [upd_apply, e, h5 j]
      · rename_i v hp
        simp only [Option.some.injEq, Prod.mk.injEq] at hs; obtain ⟨rfl, rfl⟩ := hs
        constructor
        · rw [taken_append]; simpa [taken] using h1
        · intro j; rw [takenBy_append, printedBy_append, h2 j]
          by_cases e : j = i
          · subst e; simp [hp, held, takenBy, printedBy]
          · simp [upd_apply, e, takenBy, printedBy, Ne.symm e]
        · exact h3
        · intro j hj
          by_cases e : j = i
          · subst e; simp at hj
          · simp only [upd_apply, if_neg e] at hj; exact h4 j hj
        · intro j
          by_cases e : j = i
          · subst e; have := h5 j; simp [hp] at this; simp [this]
          · simp [upd_apply, e, h5 j]
      · simp at hs
    · simp at hs

theorem reach_inv {P : Prog} {s : State} {tr : List Obs} (h : Reach (step P) (init P) s tr) : Inv P s tr := by
  induction h with
  | refl => exact inv_init P
  | tail e _ he ih => exact inv_step ih he

/-- The values are taken in the order in which they were sent, none is left out or taken twice; each receiver prints what it has taken, in this order. -/
theorem in_order {P : Prog} {s : State} {tr : List Obs} (h : Reach (step P) (init P) s tr) :
    taken tr <+: P.vals ∧ ∀ i, printedBy i tr <+: takenBy i tr := by
  have hi := reach_inv h
  exact ⟨⟨s.q ++ unsent s.snd, by rw [← List.append_assoc]; exact hi.all⟩, fun i => ⟨_, (hi.each i).symm⟩⟩

/-- A receiver that ends has not missed anything: all values have been taken. -/
theorem end_is_end {P : Prog} {s : State} {tr : List Obs} (h : Reach (step P) (init P) s tr) {i : Nat} (he : .ends i ∈ tr) : taken tr = P.vals := by
  have hi := reach_inv h
  obtain ⟨hc, hq⟩ := hi.ended i ((hi.ends i).1 he)
  have := hi.all
  rw [hq, hi.closed.1 hc] at this
  simpa [unsent] using this

/-- Where nobody can go on, the channel is closed, all values have been taken and printed, and every receiver has ended. -/
theorem no_deadlock {P : Prog} (hn : 0 < P.n) (hc : ∀ cap, P.kind = .buffered cap → 2 ≤ cap) {s : State} {tr : List Obs}
    (h : Reach (step P) (init P) s tr) (hr : ∀ e, step P s e = none) :
    taken tr = P.vals ∧ s.closed = true ∧ ∀ i, i < P.n → .ends i ∈ tr ∧ printedBy i tr = takenBy i tr := by
  have hi := reach_inv h
  have hpop : ∀ i, i < P.n → s.rcv i = .done ∨ (s.rcv i = .pop ∧ s.q = [] ∧ s.closed = false) := by
    intro i hlt
    have := hr (.rcv i)
    simp only [step, if_pos hlt] at this
    split at this
    · rename_i hp
      split at this
      · simp at this
      · rename_i hq
        split at this
        · simp at this
        · rename_i hcl; exact .inr ⟨hp, hq, by simpa using hcl⟩
    · simp at this
    · rename_i hp; exact .inl hp
  have hclosed : s.closed = true := by
    rcases hpop 0 hn with hd | ⟨_, hq, hcl⟩
    · exact (hi.ended 0 hd).1
    · exfalso
      have := hr .snd
      simp only [step] at this
      split at this
      · simp at this
      · split at this
        · rename_i cap hk
          have h2 := hc cap hk
          rw [if_pos (by rw [hq]; simp; omega)] at this; cases this
        · rw [if_pos hq] at this; cases this
      · rw [if_pos hq] at this; cases this
      · rename_i hd; rw [hi.closed.2 hd] at hcl; cases hcl
  have hdone : ∀ i, i < P.n → s.rcv i = .done := by
    intro i hlt
    rcases hpop i hlt with hd | ⟨_, _, hcl⟩
    · exact hd
    · rw [hclosed] at hcl; cases hcl
  refine ⟨end_is_end h ((hi.ends 0).2 (hdone 0 hn)), hclosed, fun i hlt => ⟨(hi.ends i).2 (hdone i hlt), ?_⟩⟩
  have := hi.each i
  rw [hdone i hlt] at this; simpa [held] using this.symm

/-- With one receiver, as in the examples, what is printed is what was sent. -/
theorem one_receiver {P : Prog} (hn : P.n = 1) (hc : ∀ cap, P.kind = .buffered cap → 2 ≤ cap) {s : State} {tr : List Obs}
    (h : Reach (step P) (init P) s tr) : printedBy 0 tr <+: P.vals ∧ ((∀ e, step P s e = none) → printedBy 0 tr = P.vals) := by
  have one : takenBy 0 tr = taken tr := by
    clear hc
    induction h with
    | refl => rfl
    | tail e _ he ih =>
      rw [takenBy_append, taken_append, ih]
      congr 1
      cases e with
      | snd =>
        simp only [step] at he
        split at he
        · simp only [Option.some.injEq, Prod.mk.injEq] at he; rw [← he.2]; rfl
        · split at he <;> split at he <;> simp only [Option.some.injEq, Prod.mk.injEq, reduceCtorEq] at he <;> rw [← he.2] <;> rfl
        · split at he <;> simp only [Option.some.injEq, Prod.mk.injEq, reduceCtorEq] at he; rw [← he.2]; rfl
        · simp at he
      | rcv i =>
        simp only [step] at he
        split at he
        · have : i = 0 := by omega
          subst this
          split at he
          · split at he
            · simp only [Option.some.injEq, Prod.mk.injEq] at he; rw [← he.2]; rfl
            · split at he <;> simp only [Option.some.injEq, Prod.mk.injEq, reduceCtorEq] at he; rw [← he.2]; rfl
          · simp only [Option.some.injEq, Prod.mk.injEq] at he; rw [← he.2]; rfl
          · simp at he
        · simp at he
  obtain ⟨a, b⟩ := in_order h
  constructor
  · exact (b 0).trans (by rw [one]; exact a)
  · intro hr
    obtain ⟨c, _, d⟩ := no_deadlock (by omega) hc h hr
    rw [(d 0 (by omega)).2, one, c]

/-- Steps left of the sender. -/
def wS : Snd → Nat
  | .next rest => 5 * rest.length + 1
  | .wait rest => 5 * rest.length + 2
  | .done => 0

/-- Steps left of a receiver. -/
def wR : Rcv → Nat
  | .pop => 1
  | .print _ => 2
  | .done => 0

/-- Steps left of the first `n` receivers. -/
def wAll (f : Nat → Rcv) : Nat → Nat
  | 0 => 0
  | n + 1 => wAll f n + wR (f n)

theorem wAll_upd (f : Nat → Rcv) (i : Nat) (c : Rcv) : ∀ n, wAll (upd f i c) n + (if i < n then wR (f i) else 0) = wAll f n + (if i < n then wR c else 0) := by
  intro n
  induction n with
  | zero => simp [wAll]
  | succ n ih =>
    simp only [wAll, upd_apply]
    by_cases e : n = i
    · subst e; simp at ih; simp; omega
    · rw [if_neg e]
      by_cases h : i < n
      · simp only [if_pos h, if_pos (show i < n + 1 by omega)] at ih ⊢; omega
      · simp only [if_neg h, if_neg (show ¬ i < n + 1 by omega)] at ih ⊢; omega

def w (P : Prog) (s : State) : Nat := wS s.snd + 3 * s.q.length + wAll s.rcv P.n

theorem w_step {P : Prog} {s s' : State} {o : List Obs} {e : Event} (hs : step P s e = some (s', o)) : w P s' < w P s := by
  cases e with
  | snd =>
    simp only [step] at hs
    split at hs
    · rename_i hp
      simp only [Option.some.injEq, Prod.mk.injEq] at hs; obtain ⟨rfl, rfl⟩ := hs
      simp [w, hp, wS]
    · rename_i v rest hp
      split at hs <;> split at hs <;> simp only [Option.some.injEq, Prod.mk.injEq, reduceCtorEq] at hs <;> obtain ⟨rfl, rfl⟩ := hs
      · simp only [w, hp, wS, List.length_cons, List.length_append, List.length_nil]; omega
      · rename_i hq; simp only [w, hp, wS, hq, List.length_cons, List.length_nil]; omega
    · rename_i rest hp
      split at hs <;> simp only [Option.some.injEq, Prod.mk.injEq, reduceCtorEq] at hs; obtain ⟨rfl, rfl⟩ := hs
      simp only [w, hp, wS]; omega
    · simp at hs
  | rcv i =>
    simp only [step] at hs
    split at hs
    · rename_i hlt
      split at hs
      · rename_i hp
        split at hs
        · rename_i v q hq
          simp only [Option.some.injEq, Prod.mk.injEq] at hs; obtain ⟨rfl, rfl⟩ := hs
          have := wAll_upd s.rcv i (.print v) P.n
          simp only [if_pos hlt, hp, wR] at this
          simp only [w, hq, List.length_cons]; omega
        · split at hs <;> simp only [Option.some.injEq, Prod.mk.injEq, reduceCtorEq] at hs; obtain ⟨rfl, rfl⟩ := hs
          have := wAll_upd s.rcv i .done P.n
          simp only [if_pos hlt, hp, wR] at this
          simp only [w]; omega
      · rename_i v hp
        simp only [Option.some.injEq, Prod.mk.injEq] at hs; obtain ⟨rfl, rfl⟩ := hs
        have := wAll_upd s.rcv i .pop P.n
        simp only [if_pos hlt, hp, wR] at this
        simp only [w]; omega
      · simp at hs
    · simp at hs

/-- Every execution is finite: at most five steps per value and one per fiber. -/
theorem steps_bounded {P : Prog} {es : List Event} {s : State} {tr : List Obs} (h : exec (step P) (init P) es = some (s, tr)) :
    es.length ≤ 5 * P.vals.length + 1 + P.n := by
  have gen : ∀ es s0 s tr, exec (step P) s0 es = some (s, tr) → es.length ≤ w P s0 := by
    intro es
    induction es with
    | nil => intros; simp
    | cons e es ih =>
      intro s0 s tr he
      simp only [exec] at he
      split at he
      · cases he
      · rename_i s1 o1 h1
        split at he
        · cases he
        · rename_i s2 o2 h3
          have := ih s1 _ _ h3
          have := w_step h1
          simp only [List.length_cons]; omega
  have := gen es _ s tr h
  have hn : ∀ n, wAll (fun _ => .pop) n = n := by intro n; induction n with | zero => rfl | succ n ih => simp [wAll, ih, wR]
  simp only [w, init, wS, hn, List.length_nil] at this
  omega

/-! ## Examples -/

-- `in_order`, `end_is_end`, `no_deadlock`, `steps_bounded`: two receivers on an unbuffered channel, the second value is printed before the first
example : ((exec (step ⟨[7, 8], 2, .unbuffered⟩) (init ⟨[7, 8], 2, .unbuffered⟩)
      [.snd, .rcv 0, .snd, .snd, .rcv 1, .rcv 1, .snd, .snd, .rcv 0, .rcv 0, .rcv 1]).map fun x => (x.2, x.1.rcv 0, x.1.rcv 1, x.1.snd, x.1.q)) =
    some ([.takes 0 7, .takes 1 8, .prints 1 8, .prints 0 7, .ends 0, .ends 1], .done, .done, .done, []) := by decide +kernel

-- `no_deadlock`, `one_receiver`: where all have ended nobody can go on
example (P : Prog) (f : Nat → Rcv) (hf : ∀ i, i < P.n → f i = .done) : ∀ e, step P ⟨.done, f, [], true⟩ e = none := by
  intro e; cases e with
  | snd => rfl
  | rcv i => simp only [step]; split <;> simp_all

-- `one_receiver`: a buffered channel of two slots, the program of `range_for.cpp`
example : ((exec (step ⟨[1, 1], 1, .buffered 2⟩) (init ⟨[1, 1], 1, .buffered 2⟩)
      [.snd, .rcv 0, .snd, .snd, .rcv 0, .rcv 0, .rcv 0, .rcv 0]).map fun x => (printedBy 0 x.2, x.1.rcv 0, x.1.snd, x.1.closed)) =
    some ([1, 1], .done, .done, true) := by decide +kernel

end Verif.Props.Pipe
