import Verif.LaunchInv

/-!
# Launching a fiber: values and histories
-/

namespace Verif.Launch

/-- Who holds the values. -/
def Val (c : Cfg) (s : State) : Prop :=
  match s.l with
  | .par k i =>
    (∀ j, i ≤ j → j < c.n → if k = 1 then s.src j = true else s.par (k - 1) j = some true) ∧
    (∀ j, j < i → s.par k j = some true) ∧ s.src c.n = true
  | .alloc => (∀ j, j < c.n → s.par (c.d + 2) j = some true) ∧ s.src c.n = true
  | .fn => (∀ j, j < c.n → s.par (c.d + 3) j = some true) ∧ s.src c.n = true
  | .mem i =>
    (∀ j, i ≤ j → j < c.n → s.par (c.d + 3) j = some true) ∧ ∀ j, j < i ∨ j = c.n → s.mem j = some true
  | .drop _ _ true | .start | .done =>
    match s.f with
    | .none | .fn => ∀ j, j ≤ c.n → s.mem j = some true
    | .arg i => (∀ j, i ≤ j → j < c.n → s.mem j = some true) ∧ ∀ j, j < i ∨ j = c.n → s.loc j = some true
    | .call => ∀ j, j ≤ c.n → s.loc j = some true
    | _ => True
  | _ => True

theorem val_init (c : Cfg) : Val c (init c) := by simp [init, Val]

theorem val_step {c : Cfg} {s s' : State} {e : Event} {o : List Obs} (hr : Rng c s) (h : Val c s)
    (hs : step c s e = some (s', o)) : Val c s' := by
  revert h hr
  refine step_cases (P := fun s s' o => Rng c s → Val c s → Val c s') hs ?_ ?_ ?_ ?_ ?_
  · intro l f src par mem loc hd sc t s' o hs hr h
    go_cases <;> simp only [Rng, L.started, Val, mkPar, mkMem, mkFn, upd, upd2] at hr h ⊢ <;> grind
  · intro l f src par mem loc hd sc t s' o hs hr h
    cases l <;> (try (rename_i ok; have hb : Bool := ok; clear hb; cases ok)) <;>
      run_cases <;> simp only [Rng, L.started, Val, mkLoc, upd] at hr h ⊢ <;> grind
  · intro src par mem loc sc hr h
    cases sc <;> simp only [Val] at h ⊢ <;> grind
  · intro f src par mem loc sc hr h
    cases sc <;> simp only [Val] at h ⊢ <;> grind
  · intro l src par mem loc hd hr h
    cases hd <;> simp only [Val] at h ⊢ <;> grind

theorem val_reach {c : Cfg} {s : State} {tr : List Obs} (h : Reach (step c) (init c) s tr) : Val c s :=
  h.inv (fun s _ => Val c s) (val_init c) (fun _ _ _ _ _ hr hi hs => val_step (inv_reach hr).rng hi hs)

/-- What was moved from is empty, if moving steals. -/
def Emp (c : Cfg) (s : State) : Prop :=
  ∀ j, c.steal j = true →
    match s.f with
    | .none | .fn => True
    | .arg i => j < i ∨ j = c.n → s.mem j ≠ some true
    | _ => j ≤ c.n → s.mem j ≠ some true

theorem emp_step {c : Cfg} {s s' : State} {e : Event} {o : List Obs} (hr : Rng c s) (h : Emp c s)
    (hs : step c s e = some (s', o)) : Emp c s' := by
  revert h hr
  refine step_cases (P := fun s s' o => Rng c s → Emp c s → Emp c s') hs ?_ ?_ ?_ ?_ ?_
  · intro l f src par mem loc hd sc t s' o hs hr h
    go_cases <;> intro j hj <;> have h' := h j hj <;>
      simp only [Rng, L.started, Emp, mkPar, mkMem, mkFn, upd, upd2] at hr h' ⊢ <;> grind
  · intro l f src par mem loc hd sc t s' o hs hr h
    run_cases <;> intro j hj <;> have h' := h j hj <;> simp only [Rng, mkLoc, upd] at hr h' ⊢ <;> grind [leave_steal]
  · intro src par mem loc sc hr h j hj
    have h' := h j hj
    cases sc <;> simpa using h'
  · intro f src par mem loc sc hr h j hj
    have h' := h j hj
    cases sc
    · simp only [Rng, L.started] at hr h' ⊢; grind
    · simpa using h'
  · intro l src par mem loc hd hr h j hj
    have h' := h j hj
    cases hd <;> simpa using h'

theorem emp_reach {c : Cfg} {s : State} {tr : List Obs} (h : Reach (step c) (init c) s tr) : Emp c s :=
  h.inv (fun s _ => Emp c s) (by simp [init, Emp]) (fun _ _ _ _ _ hr hi hs => emp_step (inv_reach hr).rng hi hs)

/-- An lvalue of the caller keeps its value. -/
theorem src_reach {c : Cfg} {s : State} {tr : List Obs} (h : Reach (step c) (init c) s tr) :
    ∀ j, c.keeps j = true → s.src j = true := by
  refine h.inv (fun s _ => ∀ j, c.keeps j = true → s.src j = true) (by simp [init]) ?_
  intro s tr e s' o _ h hs
  revert h
  refine step_cases (P := fun s s' o => (∀ j, c.keeps j = true → s.src j = true) → ∀ j, c.keeps j = true → s'.src j = true)
    hs ?_ ?_ ?_ ?_ ?_
  · intro l f src par mem loc hd sc t s' o hs h
    go_cases <;> simp only [mkPar, mkMem, mkFn, upd] at h ⊢ <;> grind
  · intro l f src par mem loc hd sc t s' o hs h
    run_cases <;> exact h
  · intro _ _ _ _ _ h; exact h
  · intro _ _ _ _ _ _ h; exact h
  · intro _ _ _ _ _ _ h; exact h

/-! ## Counting constructions and destructions -/

/-- Does the object exist? -/
def State.alive (s : State) : Place → Nat → Bool
  | .par k, i => (s.par k i).isSome
  | .mem, i => (s.mem i).isSome
  | .loc, i => (s.loc i).isSome

/-- The object has not been constructed yet. -/
def Fresh (c : Cfg) (s : State) : Place → Nat → Prop
  | .par k, i =>
    match s.l with
    | .par k' i' => k' < k ∨ (k' = k ∧ i' ≤ i)
    | .alloc => c.d + 2 < k
    | _ => False
  | .mem, i =>
    match s.l with
    | .par _ _ | .alloc | .fn => True
    | .mem i' => i' ≤ i ∧ i ≠ c.n
    | _ => False
  | .loc, i =>
    match s.f with
    | .none | .fn => True
    | .arg i' => i' ≤ i ∧ i ≠ c.n
    | _ => False

def Bal (c : Cfg) (s : State) (tr : List Obs) (p : Place) (i : Nat) : Prop :=
  tr.count (.made p i) = tr.count (.dropped p i) + (s.alive p i).toNat ∧
  tr.count (.made p i) ≤ 1 ∧ (Fresh c s p i → tr.count (.made p i) = 0)

theorem inv_alive {c : Cfg} {s : State} (h : Inv c s) :
    (∀ k i, s.alive (.par k) i = true ↔ PAlive c s.l k i) ∧ (∀ i, s.alive .mem i = true ↔ MAlive c s.l s.f i) ∧
      ∀ i, s.alive .loc i = true ↔ LAlive c s.f i := ⟨h.pal, h.mal, h.lal⟩

set_option hygiene false in
/-- A transition that does not concern the object. -/
macro "keep" : tactic => `(tactic|
  exact ⟨by simpa [State.alive, List.count_cons, mkLoc] using h.1, by simpa [List.count_cons] using h.2.1,
    fun hf => by simpa [List.count_cons] using h.2.2 hf⟩)

theorem balP_step {c : Cfg} {s s' : State} {e : Event} {o tr : List Obs} (hi : Inv c s) (k i : Nat)
    (h : Bal c s tr (.par k) i) (hs : step c s e = some (s', o)) : Bal c s' (tr ++ o) (.par k) i := by
  have hi' := inv_step hi hs
  revert hi hi' h
  refine step_cases (P := fun s s' o => Inv c s → Bal c s tr (.par k) i → Inv c s' → Bal c s' (tr ++ o) (.par k) i)
    hs ?_ ?_ ?_ ?_ ?_
  · intro l f src par mem loc hd sc t s' o hs hi h hi'
    have ha := (inv_alive hi).1 k i
    have ha' := (inv_alive hi').1 k i
    have hr := hi.rng.1
    generalize hA : State.alive ⟨l, f, src, par, mem, loc, hd, sc, false⟩ (.par k) i = A at *
    generalize hA' : State.alive s' (.par k) i = A' at *
    clear hi hi'
    simp only [Bal, hA, hA', List.count_append] at h ⊢
    clear hA hA'
    have hb : ∀ b : Bool, b.toNat = if b = true then 1 else 0 := by decide
    simp only [hb] at h ⊢
    clear hb
    go_cases <;> simp only [Fresh, PAlive, List.count_cons, List.count_nil, mkPar, mkMem, mkFn, beq_iff_eq,
      Obs.made.injEq, Obs.dropped.injEq, Place.par.injEq, reduceCtorEq] at h ha ha' hr ⊢ <;> grind
  · intro l f src par mem loc hd sc t s' o hs hi h hi'
    run_cases <;> keep
  · intro src par mem loc sc hi h hi'
    keep
  · intro f src par mem loc sc hi h hi'
    keep
  · intro l src par mem loc hd hi h hi'
    keep

theorem balM_step {c : Cfg} {s s' : State} {e : Event} {o tr : List Obs} (hi : Inv c s) (i : Nat)
    (h : Bal c s tr .mem i) (hs : step c s e = some (s', o)) : Bal c s' (tr ++ o) .mem i := by
  have hi' := inv_step hi hs
  revert hi hi' h
  refine step_cases (P := fun s s' o => Inv c s → Bal c s tr .mem i → Inv c s' → Bal c s' (tr ++ o) .mem i)
    hs ?_ ?_ ?_ ?_ ?_
  · intro l f src par mem loc hd sc t s' o hs hi h hi'
    have ha := (inv_alive hi).2.1 i
    have ha' := (inv_alive hi').2.1 i
    have hr := hi.rng
    generalize hA : State.alive ⟨l, f, src, par, mem, loc, hd, sc, false⟩ .mem i = A at *
    generalize hA' : State.alive s' .mem i = A' at *
    clear hi hi'
    simp only [Bal, hA, hA', List.count_append] at h ⊢
    clear hA hA'
    have hb : ∀ b : Bool, b.toNat = if b = true then 1 else 0 := by decide
    simp only [hb] at h ⊢
    clear hb
    go_cases <;> simp only [Fresh, MAlive, Rng, L.started, List.count_cons, List.count_nil, mkPar, mkMem, mkFn, beq_iff_eq,
      Obs.made.injEq, Obs.dropped.injEq, reduceCtorEq] at h ha ha' hr ⊢ <;> grind
  · intro l f src par mem loc hd sc t s' o hs hi h hi'
    have ha := (inv_alive hi).2.1 i
    have ha' := (inv_alive hi').2.1 i
    have hr := hi.rng
    generalize hA : State.alive ⟨l, f, src, par, mem, loc, hd, sc, false⟩ .mem i = A at *
    generalize hA' : State.alive s' .mem i = A' at *
    clear hi hi'
    simp only [Bal, hA, hA', List.count_append] at h ⊢
    clear hA hA'
    have hb : ∀ b : Bool, b.toNat = if b = true then 1 else 0 := by decide
    simp only [hb] at h ⊢
    clear hb
    run_cases <;> simp only [Fresh, MAlive, Rng, L.started, List.count_cons, List.count_nil, mkLoc, beq_iff_eq,
      Obs.made.injEq, Obs.dropped.injEq, reduceCtorEq] at h ha ha' hr ⊢ <;> grind
  · intro src par mem loc sc hi h hi'
    keep
  · intro f src par mem loc sc hi h hi'
    keep
  · intro l src par mem loc hd hi h hi'
    keep

theorem balL_step {c : Cfg} {s s' : State} {e : Event} {o tr : List Obs} (hi : Inv c s) (i : Nat)
    (h : Bal c s tr .loc i) (hs : step c s e = some (s', o)) : Bal c s' (tr ++ o) .loc i := by
  have hi' := inv_step hi hs
  revert hi hi' h
  refine step_cases (P := fun s s' o => Inv c s → Bal c s tr .loc i → Inv c s' → Bal c s' (tr ++ o) .loc i)
    hs ?_ ?_ ?_ ?_ ?_
  · intro l f src par mem loc hd sc t s' o hs hi h hi'
    have hr := hi.rng
    go_cases <;> simp only [Bal, State.alive, Fresh, Rng, L.started, List.count_append, List.count_cons, List.count_nil, mkPar,
      mkMem, mkFn, beq_iff_eq, reduceCtorEq] at h hr ⊢ <;> grind
  · intro l f src par mem loc hd sc t s' o hs hi h hi'
    have ha := (inv_alive hi).2.2 i
    have ha' := (inv_alive hi').2.2 i
    have hr := hi.rng
    generalize hA : State.alive ⟨l, f, src, par, mem, loc, hd, sc, false⟩ .loc i = A at *
    generalize hA' : State.alive s' .loc i = A' at *
    clear hi hi'
    simp only [Bal, hA, hA', List.count_append] at h ⊢
    clear hA hA'
    have hb : ∀ b : Bool, b.toNat = if b = true then 1 else 0 := by decide
    simp only [hb] at h ⊢
    clear hb
    run_cases <;> simp only [Fresh, LAlive, Rng, L.started, List.count_cons, List.count_nil, mkLoc, beq_iff_eq,
      Obs.made.injEq, Obs.dropped.injEq, reduceCtorEq] at h ha ha' hr ⊢ <;> grind
  · intro src par mem loc sc hi h hi'
    cases sc <;> keep
  · intro f src par mem loc sc hi h hi'
    cases sc
    · have hr := hi.rng
      have hr' := hi'.rng
      simp only [Bal, State.alive, Fresh, Rng, L.started, List.append_nil] at h hr hr' ⊢
      grind
    · keep
  · intro l src par mem loc hd hi h hi'
    cases hd <;> keep

theorem bal_reach {c : Cfg} {s : State} {tr : List Obs} (h : Reach (step c) (init c) s tr) :
    ∀ p i, Bal c s tr p i := by
  refine h.inv (fun s tr => ∀ p i, Bal c s tr p i) ?_ ?_
  · intro p i
    cases p <;> simp [Bal, State.alive, init]
  · intro s tr e s' o hr hb hs p i
    cases p with
    | par k => exact balP_step (inv_reach hr) k i (hb _ _) hs
    | mem => exact balM_step (inv_reach hr) i (hb _ _) hs
    | loc => exact balL_step (inv_reach hr) i (hb _ _) hs

end Verif.Launch
