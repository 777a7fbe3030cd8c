import Verif.LaunchTrace

/-!
# Launching a fiber: what the history says about the state
-/

namespace Verif.Launch

/-- Objects that are constructed after the stack was allocated. -/
def Place.inBlock (c : Cfg) : Place → Bool
  | .par k => k == c.d + 3
  | .mem => true
  | .loc => false

def Obs.isCalled : Obs → Bool
  | .called _ => true
  | _ => false

/-- An exception on the way into the control block. -/
def Spoilt (c : Cfg) (tr : List Obs) : Prop := ∃ p i, Obs.threw p i ∈ tr ∧ p.inBlock c = true

structure Hist (c : Cfg) (s : State) (tr : List Obs) : Prop where
  ret : .returned ∈ tr ↔ s.l = .done
  fail : .failed ∈ tr ↔ s.l = .failed
  alloc : match s.l with
    | .par k _ => (.alloc ∈ tr ↔ k = c.d + 3) ∧ ¬ Spoilt c tr
    | .alloc => .alloc ∉ tr ∧ ¬ Spoilt c tr
    | .uMem _ | .uFn => .alloc ∈ tr ∧ Spoilt c tr
    | .drop _ _ false | .failed => .alloc ∈ tr ↔ Spoilt c tr
    | _ => .alloc ∈ tr ∧ ¬ Spoilt c tr
  once : tr.count .alloc ≤ 1 ∧ (match s.l with | .par k _ => k ≤ c.d + 2 → .alloc ∉ tr | _ => True)
  freed : tr.count .freed = if s.f = .gone then 1 else 0
  over : (.over ∈ tr ↔ match s.f with | .ended | .kMem _ | .kFn | .free | .gone => True | _ => False)
  joined : .joined ∈ tr → .over ∈ tr ∧ s.l = .done ∧ s.handle = false

theorem spoilt_append (c : Cfg) (tr o : List Obs) : Spoilt c (tr ++ o) ↔ Spoilt c tr ∨ Spoilt c o := by
  simp only [Spoilt, List.mem_append]
  grind

theorem spoilt_nil (c : Cfg) : ¬ Spoilt c [] := by simp [Spoilt]

theorem spoilt_cons (c : Cfg) (x : Obs) (o : List Obs) :
    Spoilt c (x :: o) ↔ (match x with | .threw p _ => p.inBlock c = true | _ => False) ∨ Spoilt c o := by
  constructor
  · rintro ⟨p, i, hm, hp⟩
    rcases List.mem_cons.1 hm with rfl | hm
    · exact .inl hp
    · exact .inr ⟨p, i, hm, hp⟩
  · rintro (h | ⟨p, i, hm, hp⟩)
    · cases x with
      | threw p i => exact ⟨p, i, by simp, h⟩
      | _ => exact h.elim
    · exact ⟨p, i, by simp [hm], hp⟩

theorem hist_init (c : Cfg) : Hist c (init c) [] := by
  constructor <;> simp [init, spoilt_nil]

set_option hygiene false in
macro "hist_case" : tactic => `(tactic| (
  obtain ⟨h1, h2, h3, h4, h5, h6, h7⟩ := h
  constructor <;>
    simp only [Rng, L.started, spoilt_append, spoilt_cons, spoilt_nil, Place.inBlock, List.mem_append, List.mem_cons,
      List.not_mem_nil, List.count_append, List.count_cons, List.count_nil, beq_iff_eq, reduceCtorEq, mkPar, mkMem, mkFn, mkLoc]
      at hr h1 h2 h3 h4 h5 h6 h7 ⊢ <;> first | assumption | grind [List.count_eq_zero]))

set_option maxHeartbeats 1000000 in
theorem hist_go {c : Cfg} {tr : List Obs} : ∀ l f src par mem loc hd sc t s' o,
    go c ⟨l, f, src, par, mem, loc, hd, sc, false⟩ t = some (s', o) → Rng c ⟨l, f, src, par, mem, loc, hd, sc, false⟩ →
    Hist c ⟨l, f, src, par, mem, loc, hd, sc, false⟩ tr → Hist c s' (tr ++ o) := by
  intro l f src par mem loc hd sc t s' o hs hr h
  go_cases <;> hist_case

set_option maxHeartbeats 1000000 in
theorem hist_run {c : Cfg} {tr : List Obs} : ∀ l f src par mem loc hd sc t s' o,
    run c ⟨l, f, src, par, mem, loc, hd, sc, false⟩ t = some (s', o) → Rng c ⟨l, f, src, par, mem, loc, hd, sc, false⟩ →
    Hist c ⟨l, f, src, par, mem, loc, hd, sc, false⟩ tr → Hist c s' (tr ++ o) := by
  intro l f src par mem loc hd sc t s' o hs hr h
  run_cases <;> hist_case

theorem hist_step {c : Cfg} {s s' : State} {e : Event} {o tr : List Obs} (hr : Rng c s)
    (h : Hist c s tr) (hs : step c s e = some (s', o)) : Hist c s' (tr ++ o) := by
  revert hr h
  refine step_cases (P := fun s s' o => Rng c s → Hist c s tr → Hist c s' (tr ++ o)) hs hist_go hist_run ?_ ?_ ?_
  · intro src par mem loc sc hr h
    cases sc <;> hist_case
  · intro f src par mem loc sc hr h
    cases sc <;> cases f <;> hist_case
  · intro l src par mem loc hd hr h
    cases hd <;> hist_case

theorem hist_reach {c : Cfg} {s : State} {tr : List Obs} (h : Reach (step c) (init c) s tr) : Hist c s tr :=
  h.inv (fun s tr => Hist c s tr) (hist_init c) (fun _ _ _ _ _ hr hi hs => hist_step (inv_reach hr).rng hi hs)

/-- The call. -/
def Call (c : Cfg) (s : State) (tr : List Obs) : Prop :=
  tr.countP Obs.isCalled ≤ 1 ∧
  (match s.f with
   | .none | .fn | .arg _ => tr.countP Obs.isCalled = 0
   | .call => s.dead = false → tr.countP Obs.isCalled = 0
   | _ => tr.countP Obs.isCalled = 1) ∧
  ∀ vs, .called vs ∈ tr → vs = List.replicate (c.n + 1) true

theorem call_step {c : Cfg} {s s' : State} {e : Event} {o tr : List Obs} (hr : Rng c s) (hv : Val c s)
    (h : Call c s tr) (hs : step c s e = some (s', o)) : Call c s' (tr ++ o) := by
  revert hr hv h
  refine step_cases (P := fun s s' o => Rng c s → Val c s → Call c s tr → Call c s' (tr ++ o)) hs ?_ ?_ ?_ ?_ ?_
  · intro l f src par mem loc hd sc t s' o hs hr hv h
    go_cases <;> simp only [Call, List.countP_append, List.countP_cons, List.countP_nil, Obs.isCalled, List.mem_append, List.mem_cons,
      List.not_mem_nil, reduceCtorEq, mkPar, mkMem, mkFn, Rng, L.started] at hr h ⊢ <;> grind
  · intro l f src par mem loc hd sc t s' o hs hr hv h
    have hx : f = .call → (List.range (c.n + 1)).map (fun i => (loc i).getD false) = List.replicate (c.n + 1) true := by
      rintro rfl
      refine List.eq_replicate_iff.2 ⟨by simp, ?_⟩
      intro b hb
      obtain ⟨i, hi, rfl⟩ := List.mem_map.1 hb
      have hi : i < c.n + 1 := List.mem_range.1 hi
      have : loc i = some true := by
        cases l <;> (try (rename_i ok; have hb : Bool := ok; clear hb; cases ok)) <;>
          simp only [Rng, L.started, Val, reduceCtorEq] at hr hv <;> grind
      simp [this]
    run_cases <;> simp only [Call, List.countP_append, List.countP_cons, List.countP_nil, Obs.isCalled, List.mem_append, List.mem_cons,
      List.not_mem_nil, reduceCtorEq, mkLoc] at h ⊢ <;> grind
  · intro src par mem loc sc hr hv h
    cases sc <;> simp only [Call, List.countP_append, List.countP_cons, List.countP_nil, Obs.isCalled, List.mem_append, List.mem_cons,
      List.not_mem_nil, reduceCtorEq] at h ⊢ <;> grind
  · intro f src par mem loc sc hr hv h
    cases sc
    · simp only [Call, Rng, List.append_nil] at hr h ⊢
      grind
    · simpa [Call] using h
  · intro l src par mem loc hd hr hv h
    cases hd <;> simpa [Call] using h

theorem call_reach {c : Cfg} {s : State} {tr : List Obs} (h : Reach (step c) (init c) s tr) : Call c s tr :=
  h.inv (fun s tr => Call c s tr) (by simp [Call, init])
    (fun _ _ _ _ _ hr hi hs => call_step (inv_reach hr).rng (val_reach hr) hi hs)

end Verif.Launch
