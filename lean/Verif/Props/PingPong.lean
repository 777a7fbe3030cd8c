import Verif.PingPong

/-!
# C128: fibers that answer each other through channels alternate and end
-/

namespace Verif.Props.PingPong
open Verif Verif.PingPong

/-- The specification: what is printed in `k` rounds, a ping by `fpong`, then a pong by `fping`, and so on. -/
def rally : Nat → List Obs
  | 0 => []
  | k + 1 => rally k ++ [.prints false .ping, .prints true .pong]

/-- The states that can be reached, with what has been printed. -/
inductive Inv (P : Prog) : State → List Obs → Prop
  | serve (k : Nat) : k < P.rounds → Inv P ⟨.push k, .pop k, [], []⟩ (rally k)
  | fly (k : Nat) : k < P.rounds → Inv P ⟨.pop k, .pop k, [.ping], []⟩ (rally k)
  | got (k : Nat) : k < P.rounds → Inv P ⟨.pop k, .print k .ping, [], []⟩ (rally k)
  | back (k : Nat) : k < P.rounds → Inv P ⟨.pop k, .push k, [], []⟩ (rally k ++ [.prints false .ping])
  | ret (k : Nat) : k < P.rounds → Inv P ⟨.pop k, nextB P (k + 1), [], [.pong]⟩ (rally k ++ [.prints false .ping])
  | seen (k : Nat) : k < P.rounds → Inv P ⟨.print k .pong, nextB P (k + 1), [], []⟩ (rally k ++ [.prints false .ping])
  | over : Inv P ⟨.done, .done, [], []⟩ (rally P.rounds)

theorem inv_round {P : Prog} {k : Nat} (hk : k ≤ P.rounds) : Inv P ⟨nextA P k, nextB P k, [], []⟩ (rally k) := by
  by_cases h : k < P.rounds
  · simp only [nextA, nextB, if_pos h]; exact .serve k h
  · have e : k = P.rounds := by omega
    subst e; simp only [nextA, nextB, if_neg h]; exact .over

theorem inv_step {P : Prog} {s s' : State} {tr o : List Obs} {e : Event} (h : Inv P s tr) (hs : step P s e = some (s', o)) : Inv P s' (tr ++ o) := by
  have nb : ∀ k, (nextB P k = .pop k) ∨ nextB P k = .done := by intro k; simp only [nextB]; split <;> simp
  cases h with
  | serve k hk =>
    cases e <;> simp [step] at hs
    obtain ⟨_, rfl, rfl⟩ := hs; simpa using Inv.fly k hk
  | fly k hk =>
    cases e <;> simp [step] at hs
    obtain ⟨rfl, rfl⟩ := hs; simpa using Inv.got k hk
  | got k hk =>
    cases e <;> simp [step] at hs
    obtain ⟨rfl, rfl⟩ := hs; exact Inv.back k hk
  | back k hk =>
    cases e <;> simp [step] at hs
    obtain ⟨_, rfl, rfl⟩ := hs; simpa using Inv.ret k hk
  | ret k hk =>
    cases e
    · rcases nb (k + 1) with h | h <;> simp [step, h] at hs
    · simp [step] at hs
      obtain ⟨rfl, rfl⟩ := hs; simpa using Inv.seen k hk
  | seen k hk =>
    cases e
    · rcases nb (k + 1) with h | h <;> simp [step, h] at hs
    · simp [step] at hs
      obtain ⟨rfl, rfl⟩ := hs
      have := inv_round (P := P) (k := k + 1) (by omega)
      simpa [rally] using this
  | over => cases e <;> simp [step] at hs

theorem reach_inv {P : Prog} {s : State} {tr : List Obs} (h : Reach (step P) (init P) s tr) : Inv P s tr := by
  induction h with
  | refl => exact inv_round (Nat.zero_le _)
  | tail e _ he ih => exact inv_step ih he

/-- On every schedule, what is printed is the beginning of the rally: the fibers alternate, and `fpong` begins. -/
theorem alternate {P : Prog} {s : State} {tr : List Obs} (h : Reach (step P) (init P) s tr) : tr <+: rally P.rounds := by
  have mono : ∀ n k, rally k <+: rally (k + n) := by
    intro n
    induction n with
    | zero => intro k; exact List.prefix_rfl
    | succ n ih => intro k; exact (ih k).trans ⟨_, rfl⟩
  have le : ∀ {k}, k ≤ P.rounds → rally k <+: rally P.rounds := by
    intro k hk; have := mono (P.rounds - k) k; rwa [Nat.add_sub_cancel' hk] at this
  have half : ∀ {k}, k < P.rounds → rally k ++ [.prints false .ping] <+: rally P.rounds := by
    intro k hk
    exact List.IsPrefix.trans ⟨[.prints true .pong], by simp [rally]⟩ (le (k := k + 1) hk)
  cases reach_inv h with
  | serve k hk => exact le (by omega)
  | fly k hk => exact le (by omega)
  | got k hk => exact le (by omega)
  | back k hk => exact half hk
  | ret k hk => exact half hk
  | seen k hk => exact half hk
  | over => exact List.prefix_rfl

/-- Where neither fiber can go on, both have ended, the whole rally is printed and nothing is left in the channels. -/
theorem no_deadlock {P : Prog} (hc : 2 ≤ P.cap) {s : State} {tr : List Obs} (h : Reach (step P) (init P) s tr) (hr : ∀ e, step P s e = none) :
    s = ⟨.done, .done, [], []⟩ ∧ tr = rally P.rounds := by
  have ht := hr true
  have hf := hr false
  cases reach_inv h with
  | serve k hk => simp [step] at ht; omega
  | fly k hk => simp [step] at hf
  | got k hk => simp [step] at hf
  | back k hk => simp [step] at hf; omega
  | ret k hk => simp [step] at ht
  | seen k hk => simp [step] at ht
  | over => exact ⟨rfl, rfl⟩

/-- At each moment at most one of the fibers can go on: the output is the same on every schedule. -/
theorem one_at_a_time {P : Prog} {s : State} {tr : List Obs} (h : Reach (step P) (init P) s tr) : step P s true = none ∨ step P s false = none := by
  have nb : ∀ k, (nextB P k = .pop k) ∨ nextB P k = .done := by intro k; simp only [nextB]; split <;> simp
  cases reach_inv h with
  | serve k hk => exact .inr (by simp [step])
  | fly k hk => exact .inl (by simp [step])
  | got k hk => exact .inl (by simp [step])
  | back k hk => exact .inl (by simp [step])
  | ret k hk => exact .inr (by rcases nb (k + 1) with h | h <;> simp [step, h])
  | seen k hk => exact .inr (by rcases nb (k + 1) with h | h <;> simp [step, h])
  | over => exact .inl (by simp [step])

/-- The steps left. -/
def rest (P : Prog) (s : State) : Nat :=
  (match s.a with | .push k => 3 * (P.rounds - k) | .pop k => 3 * (P.rounds - k) - 1 | .print k _ => 3 * (P.rounds - k) - 2 | .done => 0) +
  (match s.b with | .pop k => 3 * (P.rounds - k) | .print k _ => 3 * (P.rounds - k) - 1 | .push k => 3 * (P.rounds - k) - 2 | .done => 0)

theorem rest_step {P : Prog} {s s' : State} {tr o : List Obs} {e : Event} (h : Inv P s tr) (hs : step P s e = some (s', o)) : rest P s' + 1 = rest P s := by
  have nb : ∀ k, (nextB P k = .pop k ∧ k < P.rounds) ∨ (nextB P k = .done ∧ P.rounds ≤ k) := by
    intro k; simp only [nextB]; split <;> simp <;> omega
  have na : ∀ k, (nextA P k = .push k ∧ k < P.rounds) ∨ (nextA P k = .done ∧ P.rounds ≤ k) := by
    intro k; simp only [nextA]; split <;> simp <;> omega
  cases h with
  | serve k hk =>
    cases e <;> simp [step] at hs
    obtain ⟨_, rfl, rfl⟩ := hs; simp only [rest]; omega
  | fly k hk =>
    cases e <;> simp [step] at hs
    obtain ⟨rfl, rfl⟩ := hs; simp only [rest]; omega
  | got k hk =>
    cases e <;> simp [step] at hs
    obtain ⟨rfl, rfl⟩ := hs; simp only [rest]; omega
  | back k hk =>
    cases e <;> simp [step] at hs
    obtain ⟨_, rfl, rfl⟩ := hs
    rcases nb (k + 1) with ⟨h, _⟩ | ⟨h, _⟩ <;> simp only [rest, h] <;> omega
  | ret k hk =>
    cases e
    · rcases nb (k + 1) with ⟨h, _⟩ | ⟨h, _⟩ <;> simp [step, h] at hs
    · simp [step] at hs
      obtain ⟨rfl, rfl⟩ := hs; simp only [rest]; omega
  | seen k hk =>
    cases e
    · rcases nb (k + 1) with ⟨h, _⟩ | ⟨h, _⟩ <;> simp [step, h] at hs
    · simp [step] at hs
      obtain ⟨rfl, rfl⟩ := hs
      rcases na (k + 1) with ⟨h, _⟩ | ⟨h, _⟩ <;> simp only [rest, h] <;> omega
  | over => cases e <;> simp [step] at hs

/-- An execution has at most six steps per round. -/
theorem steps_bounded {P : Prog} {es : List Event} {s : State} {tr : List Obs} (h : exec (step P) (init P) es = some (s, tr)) :
    es.length ≤ 6 * P.rounds := by
  have gen : ∀ es s0 t0, Reach (step P) (init P) s0 t0 → ∀ s tr, exec (step P) s0 es = some (s, tr) → es.length ≤ rest P s0 := by
    intro es
    induction es with
    | nil => intros; simp
    | cons e es ih =>
      intro s0 t0 h0 s tr he
      simp only [exec] at he
      split at he
      · cases he
      · rename_i s1 o1 h1
        split at he
        · cases he
        · rename_i s2 o2 h3
          have := ih s1 _ (.tail e h0 h1) _ _ h3
          have := rest_step (reach_inv h0) h1
          simp only [List.length_cons]; omega
  have := gen es _ _ .refl s tr h
  have hb : rest P (init P) = 6 * P.rounds := by
    by_cases h : 0 < P.rounds
    · simp only [rest, init, nextA, nextB, if_pos h]; omega
    · simp only [rest, init, nextA, nextB, if_neg h]; omega
  omega

/-! ## Examples -/

-- `alternate`, `no_deadlock`, `one_at_a_time`, `steps_bounded`: the whole program, three rounds and channels of two slots
example : exec (step ⟨3, 2⟩) (init ⟨3, 2⟩) ((List.replicate 3 [true, false, false, false, true, true]).flatten) =
    some (⟨.done, .done, [], []⟩, rally 3) := by decide +kernel

example : ∀ e, step ⟨3, 2⟩ ⟨.done, .done, [], []⟩ e = none := by decide

end Verif.Props.PingPong
