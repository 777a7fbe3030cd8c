import Verif.JoinRef

/-!
# C131: a fiber joins another one through a reference to a handle of `main`
-/

namespace Verif.Props.JoinRef

open Verif Verif.JoinRef

/-- What `fn1` prints as `value1`. -/
def incs1 (tr : List Obs) : List Nat := tr.filterMap fun o => match o with | .inc1 v => some v | _ => none

/-- What `fn2` prints as `value2`. -/
def incs2 (tr : List Obs) : List Nat := tr.filterMap fun o => match o with | .inc2 v => some v | _ => none

/-- No fiber can go on. -/
def AtRest (P : Prog) (s : State) : Prop := ∀ e, step P s e = none

/-- Where the fibers are, what they have counted, and the handle. -/
structure Inv (P : Prog) (s : State) (tr : List Obs) : Prop where
  loop1 : ∀ i, s.f1 = .loop i → s.value1 = i ∧ i ≤ P.a
  done1 : s.f1 = .done → s.value1 = P.a ∧ .ret1 ∈ tr
  loop2 : ∀ i, s.f2 = .loop i → s.value2 = i ∧ i ≤ P.b ∧ (s.joinable = false ↔ P.j < i)
  join2 : ∀ i, s.f2 = .joining i → s.value2 = i + 1 ∧ i < P.b ∧ i = P.j ∧ s.joinable = true
  done2 : s.f2 = .done → s.value2 = P.b ∧ (s.joinable = false ↔ P.j < P.b)
  gone : s.joinable = false → s.f1 = .done
  left : s.main ≠ .join → s.f2 = .done
  ex : s.main = .exited → s.joinable = false
  tm : s.main = .terminated → s.joinable = true
  i1 : incs1 tr = (List.range s.value1).map (· + 1)
  i2 : incs2 tr = (List.range s.value2).map (· + 1)

theorem inv {P : Prog} {s : State} {tr : List Obs} (h : Reach (step P) init s tr) : Inv P s tr := by
  induction h with
  | refl => constructor <;> simp [init, incs1, incs2]
  | tail e _ he ih =>
    obtain ⟨h1, h2, h3, h4, h5, h6, h7, h8, h9, h10, h11⟩ := ih
    simp only [step] at he
    split at he
    · simp at he
    cases e with
    | f1 =>
      simp only [step1] at he
      split at he
      · split at he <;> simp only [Option.some.injEq, Prod.mk.injEq] at he <;> obtain ⟨rfl, rfl⟩ := he
        · constructor
          case i1 => simp only [incs1, List.filterMap_append, List.range_succ, List.map_append] at h10 ⊢; rw [h10]; rfl
          case i2 => simp only [incs2, List.filterMap_append] at h11 ⊢; rw [h11]; simp
          all_goals grind
        · constructor
          case i1 => simp only [incs1, List.filterMap_append] at h10 ⊢; rw [h10]; simp
          case i2 => simp only [incs2, List.filterMap_append] at h11 ⊢; rw [h11]; simp
          all_goals grind
      · simp at he
    | f2 =>
      simp only [step2] at he
      split at he
      · split at he
        · split at he <;> simp only [Option.some.injEq, Prod.mk.injEq] at he <;> obtain ⟨rfl, rfl⟩ := he
          all_goals
            constructor
            case i1 => simp only [incs1, List.filterMap_append] at h10 ⊢; rw [h10]; simp
            case i2 => simp only [incs2, List.filterMap_append, List.range_succ, List.map_append] at h11 ⊢; rw [h11]; rfl
            all_goals grind
        · simp only [Option.some.injEq, Prod.mk.injEq] at he; obtain ⟨rfl, rfl⟩ := he
          constructor
          case i1 => simp only [incs1, List.filterMap_append] at h10 ⊢; rw [h10]; simp
          case i2 => simp only [incs2, List.filterMap_append] at h11 ⊢; rw [h11]; simp
          all_goals grind
      · split at he <;> simp only [Option.some.injEq, Prod.mk.injEq, reduceCtorEq] at he
        obtain ⟨rfl, rfl⟩ := he
        constructor
        case i1 => simp only [incs1, List.filterMap_append] at h10 ⊢; rw [h10]; simp
        case i2 => simp only [incs2, List.filterMap_append] at h11 ⊢; rw [h11]; simp
        all_goals grind
      · simp at he
    | main =>
      simp only [stepM] at he
      split at he
      · split at he <;> simp only [Option.some.injEq, Prod.mk.injEq, reduceCtorEq] at he
        obtain ⟨rfl, rfl⟩ := he
        constructor
        case i1 => simp only [incs1, List.filterMap_append] at h10 ⊢; rw [h10]; simp
        case i2 => simp only [incs2, List.filterMap_append] at h11 ⊢; rw [h11]; simp
        all_goals grind
      · split at he <;> simp only [Option.some.injEq, Prod.mk.injEq] at he <;> obtain ⟨rfl, rfl⟩ := he
        all_goals
          rw [List.append_nil]
          constructor
          case i1 => exact h10
          case i2 => exact h11
          all_goals grind
      · simp at he

/-- `join()` returns only after the fiber it joins has returned from its function. -/
theorem joined_after_return {P : Prog} {s : State} {tr : List Obs} (h : Reach (step P) init s tr) :
    ∀ before after, tr = before ++ .joined :: after → .ret1 ∈ before := by
  induction h with
  | refl => intro b a e; simp at e
  | @tail s1 s2 tr1 o e hr he ih =>
    intro before after heq
    have hi := inv hr
    have hcase : .joined ∉ o ∨ (o = [.joined] ∧ s1.f1 = .done) := by
      simp only [step] at he
      split at he
      · simp at he
      cases e with
      | f1 => simp only [step1] at he; grind
      | f2 => simp only [step2] at he; grind
      | main => simp only [stepM] at he; grind
    have key : ∀ x : List Obs, .joined ∉ x → tr1 ++ x = before ++ .joined :: after → ∃ a', tr1 = before ++ .joined :: a' := by
      intro x hx hxe
      rcases List.append_eq_append_iff.1 hxe with ⟨c, hc, hd⟩ | ⟨c, hc, hd⟩
      · exact absurd (by rw [hd]; simp) hx
      · cases c with
        | nil => exact absurd (by rw [List.nil_append] at hd; rw [← hd]; simp) hx
        | cons y c => simp only [List.cons_append, List.cons.injEq] at hd; exact ⟨c, by rw [hc, ← hd.1]⟩
    rcases hcase with hn | ⟨rfl, hd⟩
    · obtain ⟨a', ha⟩ := key o hn heq
      exact ih _ _ ha
    · rcases List.eq_nil_or_concat after with rfl | ⟨a', y, rfl⟩
      · have := (List.append_inj' heq rfl).1
        rw [← this]; exact (hi.done1 hd).2
      · rw [List.concat_eq_append, ← List.cons_append, ← List.append_assoc] at heq
        exact ih _ _ (List.append_inj' heq rfl).1

/-- How the program ends, whatever the order in which the fibers run: if the second fiber joins the first, both loops have run to their end and `main` returns;
if it does not (`join` would be in an iteration that does not exist), the destructor of the handle that is still joinable ends the program. -/
theorem outcome {P : Prog} {s : State} {tr : List Obs} (h : Reach (step P) init s tr) (hr : AtRest P s) :
    incs2 tr = (List.range P.b).map (· + 1) ∧
    (P.j < P.b → s.main = .exited ∧ incs1 tr = (List.range P.a).map (· + 1)) ∧ (P.b ≤ P.j → s.main = .terminated) := by
  obtain ⟨h1, h2, h3, h4, h5, h6, h7, h8, h9, h10, h11⟩ := inv h
  have r1 := hr .f1
  have r2 := hr .f2
  have r3 := hr .main
  simp only [step, step1, step2, stepM] at r1 r2 r3
  rw [h10, h11]
  cases hm : s.main <;> cases e1 : s.f1 <;> cases e2 : s.f2 <;> grind

/-- The handle is never destroyed while the fiber that joins it is inside `join()` or before it, and the program does not call `std::terminate` if the second fiber
joins the first. -/
theorem never_terminates {P : Prog} (hj : P.j < P.b) {s : State} {tr : List Obs} (h : Reach (step P) init s tr) :
    s.main ≠ .terminated ∧ (s.main = .exited → s.f1 = .done ∧ s.f2 = .done) := by
  obtain ⟨h1, h2, h3, h4, h5, h6, h7, h8, h9, h10, h11⟩ := inv h
  constructor <;> grind

/-- Steps that are left. -/
def w (P : Prog) (s : State) : Nat :=
  (match s.f1 with | .loop i => P.a - i + 1 | .done => 0) +
  (match s.f2 with | .loop i => 2 * (P.b - i) + 1 | .joining i => 2 * (P.b - i) | .done => 0) +
  (match s.main with | .join => 2 | .leave => 1 | _ => 0)

/-- Every execution is finite. -/
theorem steps_bounded {P : Prog} {es : List Event} {s : State} {tr : List Obs} (h : exec (step P) init es = some (s, tr)) :
    es.length ≤ P.a + 2 * P.b + 4 := by
  have gen : ∀ (es : List Event) s0 tr0 s tr, Reach (step P) init s0 tr0 → exec (step P) s0 es = some (s, tr) → es.length ≤ w P s0 := by
    intro es
    induction es with
    | nil => intros; simp
    | cons e es ih =>
      intro s0 tr0 s tr hr he
      simp only [exec] at he
      split at he
      · cases he
      · rename_i s1 o1 h1
        split at he
        · cases he
        · rename_i s2 o2 h3
          have := ih s1 _ _ _ (.tail _ hr h1) h3
          have hi := (inv hr).join2
          have : w P s1 < w P s0 := by
            simp only [step] at h1
            split at h1
            · simp at h1
            cases e with
            | f1 => simp only [step1] at h1; simp only [w]; grind
            | f2 => simp only [step2] at h1; simp only [w]; grind
            | main => simp only [stepM] at h1; simp only [w]; grind
          simp only [List.length_cons]; omega
  have := gen es _ _ s tr .refl h
  simp only [w, init] at this
  omega

/-! ## Examples -/

-- `joined_after_return`, `outcome`, `never_terminates`, `steps_bounded`: two iterations each, `join` in the second
example : ((exec (step ⟨2, 2, 1⟩) init [.f1, .f2, .f2, .f1, .f1, .f2, .f2, .main, .main]).map fun x => (x.2, x.1.main)) =
    some ([.inc1 1, .inc2 1, .inc2 2, .joins, .inc1 2, .ret1, .joined, .ret2, .done], .exited) := by decide +kernel

-- the second fiber cannot go on before the first has returned
example : (exec (step ⟨2, 2, 1⟩) init [.f1, .f2, .f2, .f2]) = none := by decide +kernel

-- `outcome`: no `join`, although the first fiber has returned
example : ((exec (step ⟨1, 1, 1⟩) init [.f1, .f1, .f2, .f2, .main, .main]).map fun x => (x.2, x.1.main)) =
    some ([.inc1 1, .ret1, .inc2 1, .ret2, .done], .terminated) := by decide +kernel

end Verif.Props.JoinRef
