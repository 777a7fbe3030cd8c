import Verif.LaunchHist

/-!
# C86: what a launch does with the callable, its arguments and the stack

For every number of arguments, every constructor of `fiber`, every mixture of types whose move steals or copies, every
construction that throws, every order of events (`Verif.Launch`).
-/

namespace Verif.Props.Launch

open Verif.Launch

/-- A launch with one argument; moving steals, rvalues are passed. -/
def one : Cfg := { n := 1, d := 2, steal := fun _ => true, lv := fun _ => false }

/-- … with a callable and an argument whose move is a copy. -/
def oneCopy : Cfg := { n := 1, d := 2, steal := fun _ => false, lv := fun _ => false }

/-- The constructor runs without an exception: down the layers, allocation, the control block, and
the way back. -/
def build : List Event := List.replicate 25 (.go false)

/-- The whole life of a fiber. -/
def life : List Event :=
  build ++ List.replicate 8 (.run false) ++ [.join, .reap] ++ List.replicate 4 (.run false)

theorem life_runs : (exec (step one) (init one) life).map (fun r => (r.1.l, r.1.f)) = some (.done, .gone) := by decide +kernel

theorem reach_of {c : Cfg} {es : List Event} {P : State → List Obs → Bool}
    (h : ((exec (step c) (init c) es).map (fun r => P r.1 r.2)) = some true) :
    ∃ s tr, Reach (step c) (init c) s tr ∧ P s tr = true := by
  cases he : exec (step c) (init c) es with
  | none => rw [he] at h; cases h
  | some r =>
    rw [he] at h
    exact ⟨r.1, r.2, reach_of_exec he, by simpa using h⟩

/-! ## The call -/

/-- The callable is called at most once, and then it and all arguments hold the values the caller passed;
once the fiber is over it was called. -/
theorem called_once_with_the_values {c : Cfg} {s : State} {tr : List Obs} (h : Reach (step c) (init c) s tr) :
    tr.countP Obs.isCalled ≤ 1 ∧ (∀ vs, .called vs ∈ tr → vs = List.replicate (c.n + 1) true) ∧
      (.over ∈ tr → tr.countP Obs.isCalled = 1) := by
  have hc := call_reach h
  refine ⟨hc.1, hc.2.2, fun ho => ?_⟩
  have hh := (hist_reach h).over.1 ho
  have h2 := hc.2.1
  cases hf : s.f <;> simp_all

example : ∃ s tr, Reach (step one) (init one) s tr ∧ decide (.called [true, true] ∈ tr ∧ .over ∈ tr) = true :=
  reach_of (P := fun _ tr => decide (.called [true, true] ∈ tr ∧ .over ∈ tr)) (es := life) (by decide +kernel)

/-- What the caller passed as an lvalue keeps its value. -/
theorem lvalues_are_kept {c : Cfg} {s : State} {tr : List Obs} (h : Reach (step c) (init c) s tr) {i : Nat}
    (hi : c.lv i = true) : s.src i = true :=
  src_reach h i (by simp [Cfg.keeps, hi])

example : ∃ s tr, Reach (step { one with lv := fun _ => true }) (init one) s tr ∧ decide (s.f = .gone ∧ s.src 1 = true) = true :=
  reach_of (c := { one with lv := fun _ => true }) (P := fun s _ => decide (s.f = .gone ∧ s.src 1 = true)) (es := life)
    (by decide +kernel)

/-! ## Objects are destroyed once -/

/-- No object is constructed twice in one place, none is destroyed that was not constructed, and none is destroyed twice. -/
theorem destroyed_at_most_once {c : Cfg} {s : State} {tr : List Obs} (h : Reach (step c) (init c) s tr) (p : Place)
    (i : Nat) : tr.count (.dropped p i) ≤ tr.count (.made p i) ∧ tr.count (.made p i) ≤ 1 := by
  have := bal_reach h p i
  exact ⟨by have := this.1; omega, this.2.1⟩

/-- Nothing is alive. -/
theorem none_alive {c : Cfg} {s : State} {tr : List Obs} (h : Reach (step c) (init c) s tr)
    (hl : s.l = .done ∨ s.l = .failed) (hf : s.l = .done → s.f = .gone ∨ s.f = .free) (p : Place) (i : Nat) :
    tr.count (.made p i) = tr.count (.dropped p i) := by
  have hb := (bal_reach h p i).1
  have hi := inv_reach h
  have hr := hi.rng.2.2.1
  have : s.alive p i = false := by
    rw [← Bool.not_eq_true]
    intro ha
    cases p with
    | par k =>
      have := (hi.pal k i).1 ha
      rcases hl with hl | hl <;> simp [PAlive, hl] at this
    | mem =>
      have := (hi.mal i).1 ha
      rcases hl with hl | hl
      · rcases hf hl with hf | hf <;> simp [MAlive, hl, hf] at this
      · simp only [hl, L.started, iff_true] at hr
        simp [MAlive, hl, hr] at this
    | loc =>
      have := (hi.lal i).1 ha
      rcases hl with hl | hl
      · rcases hf hl with hf | hf <;> simp [LAlive, hf] at this
      · simp only [hl, L.started, iff_true] at hr
        simp [LAlive, hr] at this
  simpa [this] using hb

/-- A launch that throws has destroyed everything it constructed. -/
theorem a_failed_launch_leaves_no_object {c : Cfg} {s : State} {tr : List Obs} (h : Reach (step c) (init c) s tr)
    (hf : .failed ∈ tr) (p : Place) (i : Nat) : tr.count (.made p i) = tr.count (.dropped p i) := by
  have hl := (hist_reach h).fail.1 hf
  exact none_alive h (.inr hl) (by simp [hl]) p i

/-- Copying the callable into the control block throws. -/
def spoil : List Event := List.replicate 11 (.go false) ++ [.go true] ++ List.replicate 10 (.go false)

example : ∃ s tr, Reach (step one) (init one) s tr ∧ decide (.failed ∈ tr ∧ .made (.par 5) 0 ∈ tr) = true :=
  reach_of (P := fun _ tr => decide (.failed ∈ tr ∧ .made (.par 5) 0 ∈ tr)) (es := spoil) (by decide +kernel)

/-- A step never takes back what was seen. -/
theorem split_prefix {c : Cfg} {Q : List Obs → Prop} {x : Obs} {s : State} {tr : List Obs} (h : Reach (step c) (init c) s tr)
    (hq : ∀ s tr e s' o a b, Reach (step c) (init c) s tr → step c s e = some (s', o) → o = a ++ x :: b → Q (tr ++ a)) :
    ∀ a b, tr = a ++ x :: b → Q a := by
  induction h with
  | refl => intro a b hab; simp at hab
  | @tail s s' tr o e hr hs ih =>
    intro a b hab
    rcases List.append_eq_append_iff.1 hab with ⟨u, hu1, hu2⟩ | ⟨u, hu1, hu2⟩
    · rw [hu1]
      exact hq s tr e s' o u b hr hs hu2
    · cases u with
      | nil =>
        simp only [List.append_nil, List.nil_append] at hu1 hu2
        have := hq s tr e s' o [] b hr hs (by simpa using hu2.symm)
        simpa [hu1] using this
      | cons y u =>
        simp only [List.cons_append, List.cons.injEq] at hu2
        exact ih a u (by rw [hu1, hu2.1])

/-- The stack is given back at most once, only if it was allocated, and only when all objects of the launch have been
destroyed. -/
theorem the_stack_is_freed_once_and_last {c : Cfg} {s : State} {tr : List Obs} (h : Reach (step c) (init c) s tr) :
    tr.count .alloc ≤ 1 ∧ tr.count .freed ≤ tr.count .alloc ∧
      ∀ a b, tr = a ++ .freed :: b → ∀ p i, a.count (.made p i) = a.count (.dropped p i) := by
  have hh := hist_reach h
  refine ⟨hh.once.1, ?_, ?_⟩
  · rw [hh.freed]
    split
    · rename_i hf
      have hr := (inv_reach h).rng
      simp only [Rng, hf] at hr
      have hl := hr.2.2.2.1.2.2
      have := hh.alloc
      rw [hl] at this
      exact List.count_pos_iff.2 this.1
    · exact Nat.zero_le _
  · refine split_prefix h ?_
    intro s tr e s' o a b hr hs ho p i
    have hi := inv_reach hr
    have : s.f = .free ∧ a = [] := by
      revert hs
      intro hs
      simp only [step] at hs
      split at hs
      · cases hs
      · cases e with
        | go t =>
          simp only [go] at hs
          exfalso
          repeat' split at hs
          all_goals first
            | (cases hs; done)
            | (simp only [Option.some.injEq, Prod.mk.injEq] at hs
               obtain ⟨-, rfl⟩ := hs
               rcases a with _ | ⟨y, a⟩ <;> simp at ho)
        | run t =>
          simp only [run] at hs
          repeat' split at hs
          all_goals first
            | (cases hs; done)
            | (simp only [Option.some.injEq, Prod.mk.injEq] at hs
               obtain ⟨-, rfl⟩ := hs
               rcases a with _ | ⟨y, _ | ⟨z, a⟩⟩ <;> simp_all)
        | join =>
          simp only at hs
          split at hs
          · simp only [Option.some.injEq, Prod.mk.injEq] at hs
            obtain ⟨-, rfl⟩ := hs
            rcases a with _ | ⟨y, a⟩ <;> simp at ho
          · cases hs
        | detach =>
          simp only at hs
          split at hs
          · simp only [Option.some.injEq, Prod.mk.injEq] at hs
            obtain ⟨-, rfl⟩ := hs
            simp at ho
          · cases hs
        | reap =>
          simp only at hs
          split at hs
          · simp only [Option.some.injEq, Prod.mk.injEq] at hs
            obtain ⟨-, rfl⟩ := hs
            simp at ho
          · cases hs
    rw [this.2, List.append_nil]
    have hg := hi.rng
    simp only [Rng, this.1] at hg
    exact none_alive hr (.inl hg.2.2.2.1.2.2) (fun _ => .inr this.1) p i

/-- When the life of the fiber has ended everything was destroyed and the stack was given back. -/
theorem nothing_is_left {c : Cfg} {s : State} {tr : List Obs} (h : Reach (step c) (init c) s tr) (hf : .freed ∈ tr) :
    (∀ p i, tr.count (.made p i) = tr.count (.dropped p i)) ∧ tr.count .freed = tr.count .alloc := by
  have hh := hist_reach h
  have hg : s.f = .gone := by
    have := hh.freed
    rw [← List.count_pos_iff] at hf
    split at this
    · assumption
    · omega
  have hr := (inv_reach h).rng
  simp only [Rng, hg] at hr
  have hl := hr.2.2.2.1.2.2
  refine ⟨none_alive h (.inl hl) (fun _ => .inl hg), ?_⟩
  have h1 := (the_stack_is_freed_once_and_last h)
  rw [← List.count_pos_iff] at hf
  omega

example : ∃ s tr, Reach (step one) (init one) s tr ∧ decide (.freed ∈ tr ∧ tr.count (.made .mem 0) = 1) = true :=
  reach_of (P := fun _ tr => decide (.freed ∈ tr ∧ tr.count (.made .mem 0) = 1)) (es := life) (by decide +kernel)

/-! ## Exceptions and the stack -/

/-- A launch that throws has given back its stack. -/
def FailedLaunchKeepsNoStack (c : Cfg) : Prop :=
  ∀ s tr, Reach (step c) (init c) s tr → .failed ∈ tr → tr.count .alloc = tr.count .freed

/-- It has not: when constructing the callable in the control block throws, the stack is lost. -/
theorem not_FailedLaunchKeepsNoStack : ¬ FailedLaunchKeepsNoStack one := by
  intro hp
  obtain ⟨s, tr, hr, h⟩ := reach_of (c := one)
    (P := fun _ tr => decide (.failed ∈ tr ∧ tr.count .alloc = 1 ∧ tr.count .freed = 0)) (es := spoil) (by decide +kernel)
  simp only [decide_eq_true_eq] at h
  have := hp s tr hr h.1
  omega

/-- The stack is lost exactly when an exception was thrown on the way into the control block: by constructing a parameter
of its constructor, the callable or an argument. -/
theorem failed_launch_partial {c : Cfg} {s : State} {tr : List Obs} (h : Reach (step c) (init c) s tr)
    (hf : .failed ∈ tr) :
    tr.count .alloc = tr.count .freed ↔
      ∀ p i, .threw p i ∈ tr → p ≠ .mem ∧ p ≠ .par (c.d + 3) := by
  have hh := hist_reach h
  have hl := hh.fail.1 hf
  have hr := (inv_reach h).rng.2.2.1
  simp only [hl, L.started, iff_true] at hr
  have h1 := hh.freed
  have h2 := hh.alloc
  simp only [hr, reduceCtorEq, if_false] at h1
  simp only [hl] at h2
  rw [h1]
  constructor
  · intro h0 p i hp
    have hn : .alloc ∉ tr := fun hm => by
      have := List.count_pos_iff.2 hm; omega
    have : ¬ Spoilt c tr := fun hs => hn (h2.2 hs)
    constructor
    · rintro rfl; exact this ⟨_, i, hp, rfl⟩
    · rintro rfl; exact this ⟨_, i, hp, by simp [Place.inBlock]⟩
  · intro hp
    refine List.count_eq_zero.2 fun hm => ?_
    obtain ⟨p, i, hpi, hb⟩ := h2.1 hm
    have := hp p i hpi
    cases p <;> simp_all [Place.inBlock]

/-- An argument's copy constructor throws when the first parameter is initialised: nothing is lost. -/
example : ∃ s tr, Reach (step one) (init one) s tr ∧ decide (.failed ∈ tr ∧ .threw (.par 1) 0 ∈ tr) = true :=
  reach_of (P := fun _ tr => decide (.failed ∈ tr ∧ .threw (.par 1) 0 ∈ tr)) (es := [.go true, .go false]) (by decide +kernel)

/-! ## After `join` -/

/-- Does the object hold a value? -/
def holds (s : State) : Place → Nat → Bool
  | .par k, i => s.par k i == some true
  | .mem, i => s.mem i == some true
  | .loc, i => s.loc i == some true

/-- When `join` has returned, no copy of the callable or of an argument is left. -/
def JoinedMeansDestroyed (c : Cfg) : Prop :=
  ∀ s tr, Reach (step c) (init c) s tr → .joined ∈ tr → ∀ p i, holds s p i = false

/-- There may be: a callable and arguments whose move is a copy stay in the control block until the dispatcher gets
round to destroying it. -/
theorem not_JoinedMeansDestroyed : ¬ JoinedMeansDestroyed oneCopy := by
  intro hp
  obtain ⟨s, tr, hr, h⟩ := reach_of (c := oneCopy)
    (P := fun s tr => decide (.joined ∈ tr ∧ holds s .mem 1 = true)) 
    (es := build ++ List.replicate 8 (.run false) ++ [.join]) (by decide +kernel)
  simp only [decide_eq_true_eq] at h
  have := hp s tr hr h.1 .mem 1
  rw [h.2] at this
  cases this

/-- Where moving steals, nothing holds a value once `join` has returned; otherwise only the control block does. -/
theorem joined_partial {c : Cfg} {s : State} {tr : List Obs} (h : Reach (step c) (init c) s tr) (hj : .joined ∈ tr)
    (p : Place) (i : Nat) (hp : holds s p i = true) : p = .mem ∧ c.steal i = false := by
  have hh := hist_reach h
  have hi := inv_reach h
  obtain ⟨ho, hl, hd⟩ := hh.joined hj
  have ho := hh.over.1 ho
  cases p with
  | par k =>
    have : (s.par k i).isSome = true := by simp_all [holds]
    have := (hi.pal k i).1 this
    simp [PAlive, hl] at this
  | loc =>
    have : (s.loc i).isSome = true := by simp_all [holds]
    have := (hi.lal i).1 this
    cases hf : s.f <;> simp_all [LAlive]
  | mem =>
    refine ⟨rfl, ?_⟩
    rw [← Bool.not_eq_true]
    intro hs
    have he := emp_reach h i hs
    have hm : s.mem i = some true := by simpa [holds] using hp
    have := (hi.mal i).1 (by simp [hm])
    cases hf : s.f <;> simp only [hf, MAlive] at ho he this <;> first | exact ho | exact he (by omega) hm | skip
    have hr := hi.rng.2.1
    simp only [hf] at hr
    exact he (by omega) hm

example : ∃ s tr, Reach (step one) (init one) s tr ∧ decide (.joined ∈ tr ∧ s.alive .mem 1 = true) = true :=
  reach_of (P := fun s tr => decide (.joined ∈ tr ∧ s.alive .mem 1 = true))
    (es := build ++ List.replicate 8 (.run false) ++ [.join]) (by decide +kernel)

/-! ## It comes to an end -/

/-- How much is left to do for the launching fiber. -/
def restL (c : Cfg) : L → Nat
  | .par k i => (c.d + 3) * (c.n + 2) + 3 * c.n + 8 + (c.d + 3 - k) * (c.n + 2) + (c.n - i)
  | .alloc => (c.d + 3) * (c.n + 2) + 4 * c.n + 9
  | .fn => (c.d + 3) * (c.n + 2) + 3 * c.n + 7
  | .mem i => (c.d + 3) * (c.n + 2) + 2 * c.n + 5 + (c.n - i)
  | .uMem i => (c.d + 3) * (c.n + 2) + c.n + 4 + i
  | .uFn => (c.d + 3) * (c.n + 2) + c.n + 3
  | .drop k i _ => k * (c.n + 2) + i + 1
  | .start => (c.d + 2) * (c.n + 2)
  | .done | .failed => 0

/-- How much is left to do for the new fiber. -/
def restF (c : Cfg) : F → Nat
  | .none => 3 * c.n + 13
  | .fn => 3 * c.n + 10
  | .arg i => 2 * c.n + 9 + (c.n - i)
  | .call => 2 * c.n + 8
  | .dArg i => c.n + 7 + i
  | .dFn => c.n + 6
  | .over => c.n + 5
  | .ended => c.n + 4
  | .kMem i => 3 + i
  | .kFn => 2
  | .free => 1
  | .gone => 0

/-- How many steps a launch can take at most. -/
def rest (c : Cfg) (s : State) : Nat :=
  restL c s.l + restF c s.f + s.handle.toNat + s.sched.toNat + (!s.dead).toNat

/-- Every step brings the end nearer: no launch goes on for ever. -/
theorem every_step_counts {c : Cfg} {s s' : State} {tr o : List Obs} {e : Event} (h : Reach (step c) (init c) s tr)
    (hs : step c s e = some (s', o)) : rest c s' < rest c s := by
  have hr := (inv_reach h).rng
  revert hr
  refine step_cases (P := fun s s' o => Rng c s → rest c s' < rest c s) hs ?_ ?_ ?_ ?_ ?_
  · intro l f src par mem loc hd sc t s' o hs hr
    have hk : ∀ k, k < c.d + 3 → (c.d + 3 - k) * (c.n + 2) = (c.d + 3 - (k + 1)) * (c.n + 2) + (c.n + 2) := by
      intro k hk
      rw [← Nat.succ_mul]
      congr 1
      omega
    have hk' : ∀ k, 1 < k → k * (c.n + 2) = (k - 1) * (c.n + 2) + (c.n + 2) := by
      intro k hk
      rw [← Nat.succ_mul]
      congr 1
      omega
    have hk2 := hk (c.d + 2) (by omega)
    have hm : ∀ k, k ≤ c.d + 3 → k * (c.n + 2) ≤ (c.d + 3) * (c.n + 2) := fun k hk => Nat.mul_le_mul_right _ hk
    have h1 : (c.d + 3 - (c.d + 3)) * (c.n + 2) = 0 := by simp
    have h3 := hk' (c.d + 3) (by omega)
    have h4 := hk' (c.d + 2) (by omega)
    have h2 : c.d + 3 - 1 = c.d + 2 := rfl
    have h2' : c.d + 2 - 1 = c.d + 1 := rfl
    have h2'' : c.d + 2 + 1 = c.d + 3 := rfl
    rw [h2] at h3
    rw [h2'] at h4
    rw [h2'', h1] at hk2
    go_cases <;> simp only [Rng, rest, restL, restF, L.started, mkPar, mkMem, mkFn, h1, Bool.toNat_true, Bool.toNat_false] at hr ⊢ <;> try grind
    rename_i k i _ _ _ _
    have := hk k (by have := hr.1.2.1; omega)
    have := hr.1.2.2
    omega
  · intro l f src par mem loc hd sc t s' o hs hr
    have hr2 := hr.2.1
    clear hr
    run_cases <;> simp only [rest, restF, mkLoc, Bool.not_false, Bool.not_true, Bool.toNat_true, Bool.toNat_false] at hr2 ⊢ <;> first | omega | grind
  · intro src par mem loc sc hr
    cases sc <;> simp [rest, restF] <;> omega
  · intro f src par mem loc sc hr
    cases sc
    · cases f <;> simp_all [Rng, rest, restF] <;> omega
    · simp [rest]
  · intro l src par mem loc hd hr
    cases hd <;> simp [rest, restF] <;> omega

/-- As long as the launch has neither failed nor ended, something can happen. -/
theorem never_stuck {c : Cfg} {s : State} {tr : List Obs} (h : Reach (step c) (init c) s tr) (hd : s.dead = false)
    (hf : .failed ∉ tr) (hg : .freed ∉ tr) : ∃ e s' o, step c s e = some (s', o) := by
  have hh := hist_reach h
  have hr := (inv_reach h).rng
  have h1 : s.l ≠ .failed := fun hl => hf (hh.fail.2 hl)
  have h2 : s.f ≠ .gone := fun hl => hg (by
    have := hh.freed
    rw [if_pos hl] at this
    exact List.count_pos_iff.1 (by omega))
  have key : (∃ e, (step c s e).isSome = true) → ∃ e s' o, step c s e = some (s', o) := by
    rintro ⟨e, he⟩
    obtain ⟨r, hr⟩ := Option.isSome_iff_exists.1 he
    exact ⟨e, r.1, r.2, hr⟩
  apply key
  by_cases hl : s.l = .done
  · by_cases hq : s.f = .ended
    · simp only [Rng, hq] at hr
      rcases hr.2.2.2.1 with hx | hx
      · exact ⟨.join, by simp [step, hd, hl, hx, hq]⟩
      · exact ⟨.reap, by simp [step, hd, hx, hq]⟩
    · have : s.f ≠ .none := by
        intro hn
        have := hr.2.2.1.1 hn
        simp [hl, L.started] at this
      refine ⟨.run false, ?_⟩
      simp only [step, hd, run]
      repeat' split
      all_goals simp_all
  · refine ⟨.go false, ?_⟩
    simp only [step, hd, go]
    repeat' split
    all_goals simp_all

example : ∃ s tr, Reach (step one) (init one) s tr ∧ decide (s.dead = false ∧ .joined ∈ tr ∧ .freed ∉ tr) = true :=
  reach_of (P := fun s tr => decide (s.dead = false ∧ .joined ∈ tr ∧ .freed ∉ tr))
    (es := build ++ List.replicate 8 (.run false) ++ [.join]) (by decide +kernel)

end Verif.Props.Launch
