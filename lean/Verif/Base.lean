/-!
# Transition systems

Common vocabulary of all concurrent models: a step function that performs one atomic action chosen by
an event, the executions it generates and the states/traces reachable by them.
-/

namespace Verif

/-- A fiber (the address of its `context` object, `class context`, `include/boost/fiber/context.hpp`). -/
abbrev Fid := Nat

/-- Point update of a per-fiber table (an assignment to a member of one `context`). -/
def upd {α : Type} (f : Nat → α) (i : Nat) (v : α) : Nat → α :=
  fun j => if j = i then v else f j

@[simp] theorem upd_same {α : Type} (f : Nat → α) (i : Nat) (v : α) : upd f i v i = v := by
  simp [upd]

@[simp] theorem upd_other {α : Type} (f : Nat → α) {i j : Nat} (v : α) (h : j ≠ i) :
    upd f i v j = f j := by
  simp [upd, h]

theorem upd_apply {α : Type} (f : Nat → α) (i j : Nat) (v : α) :
    upd f i v j = if j = i then v else f j := rfl

/-- `Reach step s₀ s tr`: some finite sequence of events leads from `s₀` to `s`, and the observations
emitted along the way are, in order, `tr`. -/
inductive Reach {S E O : Type} (step : S → E → Option (S × List O)) (s₀ : S) : S → List O → Prop
  | refl : Reach step s₀ s₀ []
  | tail {s s' : S} {tr o : List O} (e : E) :
      Reach step s₀ s tr → step s e = some (s', o) → Reach step s₀ s' (tr ++ o)

/-- Execute a list of events; `none` if one of them is not enabled. -/
def exec {S E O : Type} (step : S → E → Option (S × List O)) : S → List E → Option (S × List O)
  | s, [] => some (s, [])
  | s, e :: es =>
    match step s e with
    | none => none
    | some (s', o) =>
      match exec step s' es with
      | none => none
      | some (s'', o') => some (s'', o ++ o')

/-- An invariant that holds initially and is preserved by every step from a reachable state holds in
every reachable state. -/
theorem Reach.inv {S E O : Type} {step : S → E → Option (S × List O)} {s₀ : S}
    (P : S → List O → Prop) (h0 : P s₀ [])
    (hs : ∀ s tr e s' o, Reach step s₀ s tr → P s tr → step s e = some (s', o) → P s' (tr ++ o))
    {s : S} {tr : List O} (h : Reach step s₀ s tr) : P s tr := by
  induction h with
  | refl => exact h0
  | tail e hr he ih => exact hs _ _ e _ _ hr ih he

theorem Reach.trans {S E O : Type} {step : S → E → Option (S × List O)} {s₀ s₁ s₂ : S}
    {t₁ t₂ : List O} (h₁ : Reach step s₀ s₁ t₁) (h₂ : Reach step s₁ s₂ t₂) :
    Reach step s₀ s₂ (t₁ ++ t₂) := by
  induction h₂ with
  | refl => simpa using h₁
  | tail e _ he ih => rw [← List.append_assoc]; exact .tail e ih he

/-- Every execution of an event list is a reachable state: used to exhibit concrete runs. -/
theorem reach_of_exec {S E O : Type} {step : S → E → Option (S × List O)} {es : List E} :
    ∀ {s s' : S} {tr : List O}, exec step s es = some (s', tr) → Reach step s s' tr := by
  induction es with
  | nil => intro s s' tr h; simp only [exec, Option.some.injEq, Prod.mk.injEq] at h
           obtain ⟨rfl, rfl⟩ := h; exact .refl
  | cons e es ih =>
    intro s s' tr h
    simp only [exec] at h
    split at h
    · cases h
    · rename_i s1 o1 h1
      split at h
      · cases h
      · rename_i s2 o2 h2
        simp only [Option.some.injEq, Prod.mk.injEq] at h
        obtain ⟨rfl, rfl⟩ := h
        have := Reach.trans (.tail e .refl h1) (ih h2)
        simpa using this

/-- Conversely every reachable state is the result of executing some event list. -/
theorem exec_of_reach {S E O : Type} {step : S → E → Option (S × List O)} {s s' : S} {tr : List O}
    (h : Reach step s s' tr) : ∃ es, exec step s es = some (s', tr) := by
  have app : ∀ (es : List E) (e : E) (a b c : S) (t o : List O),
      exec step a es = some (b, t) → step b e = some (c, o) →
      exec step a (es ++ [e]) = some (c, t ++ o) := by
    intro es e
    induction es with
    | nil => intro a b c t o h1 h2
             simp only [exec, Option.some.injEq, Prod.mk.injEq] at h1
             obtain ⟨rfl, rfl⟩ := h1; simp [exec, h2]
    | cons x xs ih =>
      intro a b c t o h1 h2
      simp only [exec] at h1
      split at h1
      · cases h1
      · rename_i s1 o1 hx
        split at h1
        · cases h1
        · rename_i s2 o2 hxs
          simp only [Option.some.injEq, Prod.mk.injEq] at h1
          obtain ⟨rfl, rfl⟩ := h1
          have := ih _ _ _ _ _ hxs h2
          simp [exec, hx, this]
  induction h with
  | refl => exact ⟨[], rfl⟩
  | tail e _ he ih => obtain ⟨es, hes⟩ := ih; exact ⟨es ++ [e], app _ _ _ _ _ _ _ hes he⟩

end Verif
