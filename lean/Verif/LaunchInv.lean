import Verif.Launch

/-!
# Invariants of launching a fiber
-/

namespace Verif.Launch

/-- Which parameters exist. -/
def PAlive (c : Cfg) (l : L) (k i : Nat) : Prop :=
  1 ≤ k ∧ i < c.n ∧
  match l with
  | .par k' i' => k < k' ∨ (k = k' ∧ i < i')
  | .alloc => k ≤ c.d + 2
  | .fn | .mem _ | .uMem _ | .uFn => k ≤ c.d + 3
  | .drop k' i' _ => k < k' ∨ (k = k' ∧ i < i')
  | .start => k ≤ c.d + 1
  | .done | .failed => False

/-- Which members exist. -/
def MAlive (c : Cfg) (l : L) (f : F) (i : Nat) : Prop :=
  match f with
  | .none =>
    match l with
    | .mem i' | .uMem i' => i < i' ∨ i = c.n
    | .uFn => i = c.n
    | .drop _ _ true | .start => i ≤ c.n
    | _ => False
  | .kMem i' => i < i' ∨ i = c.n
  | .kFn => i = c.n
  | .free | .gone => False
  | _ => i ≤ c.n

/-- Which local objects exist. -/
def LAlive (c : Cfg) (f : F) (i : Nat) : Prop :=
  match f with
  | .arg i' | .dArg i' => i < i' ∨ i = c.n
  | .call => i ≤ c.n
  | .dFn => i = c.n
  | _ => False

/-- The fiber has been started. -/
def L.started (c : Cfg) : L → Bool
  | .done => true
  | .drop k _ true => decide (k ≤ c.d + 1)
  | _ => false

/-- Ranges, and who does what when. -/
def Rng (c : Cfg) (s : State) : Prop :=
  (match s.l with
   | .par k i => 1 ≤ k ∧ k ≤ c.d + 3 ∧ i ≤ c.n
   | .mem i | .uMem i => i ≤ c.n
   | .drop k i ok => 1 ≤ k ∧ k ≤ c.d + 3 ∧ i ≤ c.n ∧ (k = c.d + 2 → ok = true → s.f = .none)
   | _ => True) ∧
  (match s.f with
   | .arg i | .dArg i | .kMem i => i ≤ c.n
   | _ => True) ∧
  (s.f = .none ↔ s.l.started c = false) ∧
  (match s.f with
   | .none => s.handle = false ∧ s.sched = false
   | .ended => s.handle = true ∨ s.sched = true
   | .kMem _ | .kFn | .free | .gone => s.handle = false ∧ s.sched = false ∧ s.l = .done
   | _ => s.sched = true) ∧
  (s.f ≠ .none → s.l ≠ .done → s.handle = true)

structure Inv (c : Cfg) (s : State) : Prop where
  rng : Rng c s
  pal : ∀ k i, (s.par k i).isSome ↔ PAlive c s.l k i
  mal : ∀ i, (s.mem i).isSome ↔ MAlive c s.l s.f i
  lal : ∀ i, (s.loc i).isSome ↔ LAlive c s.f i

theorem inv_init (c : Cfg) : Inv c (init c) := by
  constructor <;> simp [init, Rng, L.started, PAlive, MAlive, LAlive]
  omega

/-- The transitions, one by one. -/
theorem step_cases {c : Cfg} {s s' : State} {e : Event} {o : List Obs} {P : State → State → List Obs → Prop}
    (hs : step c s e = some (s', o))
    (hgo : ∀ l f src par mem loc hd sc t s' o, go c ⟨l, f, src, par, mem, loc, hd, sc, false⟩ t = some (s', o) →
      P ⟨l, f, src, par, mem, loc, hd, sc, false⟩ s' o)
    (hrun : ∀ l f src par mem loc hd sc t s' o, run c ⟨l, f, src, par, mem, loc, hd, sc, false⟩ t = some (s', o) →
      P ⟨l, f, src, par, mem, loc, hd, sc, false⟩ s' o)
    (hjoin : ∀ src par mem loc sc, P ⟨.done, .ended, src, par, mem, loc, true, sc, false⟩
      ⟨.done, if sc then .ended else .kMem c.n, src, par, mem, loc, false, sc, false⟩ [.joined])
    (hdet : ∀ f src par mem loc sc, P ⟨.done, f, src, par, mem, loc, true, sc, false⟩
      ⟨.done, if sc then f else .kMem c.n, src, par, mem, loc, false, sc, false⟩ [])
    (hreap : ∀ l src par mem loc hd, P ⟨l, .ended, src, par, mem, loc, hd, true, false⟩
      ⟨l, if hd then .ended else .kMem c.n, src, par, mem, loc, hd, false, false⟩ []) : P s s' o := by
  rcases s with ⟨l, f, src, par, mem, loc, hd, sc, dead⟩
  simp only [step] at hs
  split at hs
  · cases hs
  · rename_i hd'
    have hd' : dead = false := by simpa using hd'
    subst hd'
    cases e with
    | go t => exact hgo _ _ _ _ _ _ _ _ _ _ _ hs
    | run t => exact hrun _ _ _ _ _ _ _ _ _ _ _ hs
    | join =>
      simp only at hs
      split at hs
      · rename_i hh
        obtain ⟨rfl, rfl, rfl⟩ := hh
        simp only [release, Option.some.injEq, Prod.mk.injEq] at hs
        obtain ⟨rfl, rfl⟩ := hs
        have := hjoin src par mem loc sc
        cases sc <;> simpa using this
      · cases hs
    | detach =>
      simp only at hs
      split at hs
      · rename_i hh
        obtain ⟨rfl, rfl⟩ := hh
        simp only [release, Option.some.injEq, Prod.mk.injEq] at hs
        obtain ⟨rfl, rfl⟩ := hs
        have := hdet f src par mem loc sc
        cases sc <;> simpa using this
      · cases hs
    | reap =>
      simp only at hs
      split at hs
      · rename_i hh
        obtain ⟨rfl, rfl⟩ := hh
        simp only [release, Option.some.injEq, Prod.mk.injEq] at hs
        obtain ⟨rfl, rfl⟩ := hs
        have := hreap l src par mem loc hd
        cases hd <;> simpa using this
      · cases hs

set_option hygiene false in
/-- Split a transition of the launching fiber into its cases. -/
macro "go_cases" : tactic => `(tactic| (
  cases l <;> (try (rename_i ok; have hb : Bool := ok; clear hb; cases ok)) <;> simp only [go] at hs <;> (repeat' split at hs) <;> (try (cases hs; done)) <;>
  simp only [Option.some.injEq, Prod.mk.injEq, reduceCtorEq] at hs <;> (try (obtain ⟨rfl, rfl⟩ := hs))))

set_option hygiene false in
/-- Split a transition of the new fiber into its cases. -/
macro "run_cases" : tactic => `(tactic| (
  cases f <;> simp only [run] at hs <;> (repeat' split at hs) <;> (try (cases hs; done)) <;>
  simp only [Option.some.injEq, Prod.mk.injEq, reduceCtorEq] at hs <;> (try (obtain ⟨rfl, rfl⟩ := hs))))

theorem rng_step {c : Cfg} {s s' : State} {e : Event} {o : List Obs} (h : Rng c s) (hs : step c s e = some (s', o)) :
    Rng c s' := by
  revert h
  refine step_cases (P := fun s s' o => Rng c s → Rng c s') hs ?_ ?_ ?_ ?_ ?_
  · intro l f src par mem loc hd sc t s' o hs h
    go_cases <;> simp only [Rng, L.started, mkPar, mkMem, mkFn] at h ⊢ <;> grind
  · intro l f src par mem loc hd sc t s' o hs h
    run_cases <;> simp only [Rng, L.started, mkLoc] at h ⊢ <;> grind
  · intro src par mem loc sc h
    cases sc <;> simp only [Rng, L.started] at h ⊢ <;> grind
  · intro f src par mem loc sc h
    cases sc <;> simp only [Rng, L.started] at h ⊢ <;> grind
  · intro l src par mem loc hd h
    cases hd <;> simp only [Rng, L.started] at h ⊢ <;> grind

theorem pal_step {c : Cfg} {s s' : State} {e : Event} {o : List Obs} (hr : Rng c s) 
    (h : ∀ k i, (s.par k i).isSome ↔ PAlive c s.l k i) (hs : step c s e = some (s', o)) :
    ∀ k i, (s'.par k i).isSome ↔ PAlive c s'.l k i := by
  revert h hr
  refine step_cases (P := fun s s' o => Rng c s → (∀ k i, (s.par k i).isSome ↔ PAlive c s.l k i) →
    ∀ k i, (s'.par k i).isSome ↔ PAlive c s'.l k i) hs ?_ ?_ ?_ ?_ ?_
  · intro l f src par mem loc hd sc t s' o hs hr h
    go_cases <;> intro k' i' <;> have h' := h k' i' <;> simp only [PAlive, Rng, L.started, mkPar, mkMem, mkFn, upd2] at h h' hr ⊢ <;> grind
  · intro l f src par mem loc hd sc t s' o hs hr h
    run_cases <;> simpa [mkLoc] using h
  · intro src par mem loc sc hr h
    exact h
  · intro f src par mem loc sc hr h
    exact h
  · intro l src par mem loc hd hr h
    exact h

theorem mal_step {c : Cfg} {s s' : State} {e : Event} {o : List Obs} (hr : Rng c s) 
    (hp : ∀ k i, (s.par k i).isSome ↔ PAlive c s.l k i)
    (h : ∀ i, (s.mem i).isSome ↔ MAlive c s.l s.f i) (hs : step c s e = some (s', o)) :
    ∀ i, (s'.mem i).isSome ↔ MAlive c s'.l s'.f i := by
  revert h hr hp
  refine step_cases (P := fun s s' o => Rng c s → (∀ k i, (s.par k i).isSome ↔ PAlive c s.l k i) →
    (∀ i, (s.mem i).isSome ↔ MAlive c s.l s.f i) → ∀ i, (s'.mem i).isSome ↔ MAlive c s'.l s'.f i) hs ?_ ?_ ?_ ?_ ?_
  · intro l f src par mem loc hd sc t s' o hs hr hp h
    go_cases <;> intro i' <;> have h' := h i' <;> simp only [PAlive, MAlive, Rng, L.started, mkPar, mkMem, mkFn, upd] at h h' hr hp ⊢ <;> grind
  · intro l f src par mem loc hd sc t s' o hs hr hp h
    run_cases <;> intro i' <;> have h' := h i' <;> simp only [MAlive, Rng, L.started, mkLoc, upd] at h h' hr ⊢ <;> grind
  · intro src par mem loc sc hr hp h i
    have h' := h i
    simp only [MAlive] at h' ⊢; grind
  · intro f src par mem loc sc hr hp h i
    have h' := h i
    simp only [MAlive, Rng, L.started] at h' hr ⊢; grind
  · intro l src par mem loc hd hr hp h i
    have h' := h i
    simp only [MAlive] at h' ⊢; grind

theorem lal_step {c : Cfg} {s s' : State} {e : Event} {o : List Obs} (hr : Rng c s) 
    (hm : ∀ i, (s.mem i).isSome ↔ MAlive c s.l s.f i)
    (h : ∀ i, (s.loc i).isSome ↔ LAlive c s.f i) (hs : step c s e = some (s', o)) :
    ∀ i, (s'.loc i).isSome ↔ LAlive c s'.f i := by
  revert h hr hm
  refine step_cases (P := fun s s' o => Rng c s → (∀ i, (s.mem i).isSome ↔ MAlive c s.l s.f i) →
    (∀ i, (s.loc i).isSome ↔ LAlive c s.f i) → ∀ i, (s'.loc i).isSome ↔ LAlive c s'.f i) hs ?_ ?_ ?_ ?_ ?_
  · intro l f src par mem loc hd sc t s' o hs hr hm h
    go_cases <;> intro i' <;> have h' := h i' <;> simp only [LAlive, Rng, L.started, mkPar, mkMem, mkFn] at h' hr ⊢ <;> grind
  · intro l f src par mem loc hd sc t s' o hs hr hm h
    run_cases <;> intro i' <;> have h' := h i' <;> have hm' := hm i' <;>
      simp only [MAlive, LAlive, Rng, L.started, mkLoc, upd] at h h' hm hm' hr ⊢ <;> grind
  · intro src par mem loc sc hr hm h i
    have h' := h i
    simp only [LAlive] at h' ⊢; grind
  · intro f src par mem loc sc hr hm h i
    have h' := h i
    simp only [LAlive, Rng, L.started] at h' hr ⊢; grind
  · intro l src par mem loc hd hr hm h i
    have h' := h i
    simp only [LAlive] at h' ⊢; grind

theorem inv_step {c : Cfg} {s s' : State} {e : Event} {o : List Obs} (h : Inv c s) (hs : step c s e = some (s', o)) :
    Inv c s' :=
  ⟨rng_step h.rng hs, pal_step h.rng h.pal hs, mal_step h.rng h.pal h.mal hs, lal_step h.rng h.mal h.lal hs⟩

theorem inv_reach {c : Cfg} {s : State} {tr : List Obs} (h : Reach (step c) (init c) s tr) : Inv c s :=
  h.inv (fun s _ => Inv c s) (inv_init c) (fun _ _ _ _ _ _ hi hs => inv_step hi hs)

end Verif.Launch
