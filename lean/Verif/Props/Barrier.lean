import Verif.Barrier
import Mathlib.Data.List.Perm.Subperm

/-!
# Barrier: C14 – C16

The specification numbers the counted calls 0, 1, 2, … in the order in which they were counted. Call number
`i` belongs to batch `i / n`; batch `k` is complete when `(k + 1) * n` calls have been counted. It says nothing
about mutexes, cycles or queues.
-/

namespace Verif.Barrier

structure Spec where
  a      : Nat                   -- calls counted so far
  inCall : Fid → Bool
  idx    : Fid → Option Nat      -- number of the fiber's current call, once counted
  rets   : List (Nat × Bool)     -- number and result of every call that has returned

def Spec.init : Spec := { a := 0, inCall := fun _ => false, idx := fun _ => none, rets := [] }

/-- Batch `k` is complete. -/
def Spec.complete (sp : Spec) (n k : Nat) : Prop := (k + 1) * n ≤ sp.a

instance (sp : Spec) (n k : Nat) : Decidable (sp.complete n k) := by unfold Spec.complete; infer_instance

def Spec.next (n : Nat) (sp : Spec) : Obs → Option Spec
  | .called f => if sp.inCall f = false ∧ sp.idx f = none then some { sp with inCall := upd sp.inCall f true } else none
  | .arrived f =>
    if sp.inCall f = true ∧ sp.idx f = none then
      some { sp with a := sp.a + 1, idx := upd sp.idx f (some sp.a) }
    else none
  | .ret f b =>
    match sp.idx f with
    | none => none
    | some i =>
      if sp.complete n (i / n) ∧ b = decide (i % n + 1 = n) then
        some { sp with inCall := upd sp.inCall f false, idx := upd sp.idx f none, rets := sp.rets ++ [(i, b)] }
      else none

def Spec.run (n : Nat) : Spec → List Obs → Option Spec
  | sp, [] => some sp
  | sp, o :: os =>
    match sp.next n o with
    | none => none
    | some sp' => sp'.run n os

theorem Spec.run_append {n : Nat} {t1 t2 : List Obs} : ∀ {sp sp1 : Spec},
    sp.run n t1 = some sp1 → sp.run n (t1 ++ t2) = sp1.run n t2 := by
  induction t1 with
  | nil => intro sp sp1 h; simp only [Spec.run, Option.some.injEq] at h; subst h; rfl
  | cons o os ih =>
    intro sp sp1 h
    simp only [Spec.run, List.cons_append] at h ⊢
    split at h
    · cases h
    · exact ih h

/-! ## Simulation -/

theorem succ_div_mod {n a : Nat} (hn : 0 < n) :
    (a % n + 1 = n → (a + 1) / n = a / n + 1 ∧ (a + 1) % n = 0) ∧
    (a % n + 1 ≠ n → (a + 1) / n = a / n ∧ (a + 1) % n = a % n + 1) := by
  have h1 := Nat.div_add_mod a n
  have h2 := Nat.mod_lt a hn
  constructor
  · intro h
    have : a + 1 = (a / n + 1) * n := by rw [Nat.add_mul, Nat.mul_comm (a / n)]; omega
    rw [this]; exact ⟨Nat.mul_div_cancel _ hn, Nat.mul_mod_left _ _⟩
  · intro h
    have h3 : a % n + 1 < n := by omega
    have : a + 1 = (a % n + 1) + n * (a / n) := by omega
    constructor
    · rw [this, Nat.add_mul_div_left _ _ hn, Nat.div_eq_of_lt h3]
      simp
    · rw [this, Nat.add_mul_mod_self_left, Nat.mod_eq_of_lt h3]

/-- What the program counter says about the number of the current call. -/
def IdxOk (n : Nat) (sp : Spec) (o : Option Nat) : Pc → Prop
  | .idle | .locking | .body => o = none
  | .unlocking | .notifying => ∃ i, o = some i ∧ i % n + 1 = n ∧ sp.complete n (i / n)
  | .check cyc | .waiting cyc _ | .relocking cyc => ∃ i, o = some i ∧ i / n = cyc ∧ i % n + 1 ≠ n ∧ i < sp.a

structure Sim (n : Nat) (s : State) (sp : Spec) : Prop where
  cur  : s.current + sp.a % n = n
  cyc  : s.cycle = sp.a / n
  call : ∀ f, sp.inCall f = decide (s.pc f ≠ .idle)
  idx  : ∀ f, IdxOk n sp (sp.idx f) (s.pc f)

theorem idxOk_mono {n : Nat} {sp sp' : Spec} (h : sp.a ≤ sp'.a) {o : Option Nat} {p : Pc}
    (hi : IdxOk n sp o p) : IdxOk n sp' o p := by
  cases p <;> simp only [IdxOk, Spec.complete] at hi ⊢
  all_goals first
    | exact hi
    | (obtain ⟨i, h1, h2, h3⟩ := hi; exact ⟨i, h1, h2, by omega⟩)

theorem sim_init {n : Nat} : Sim n (init n) Spec.init := by
  constructor <;> simp [init, Spec.init, IdxOk]

theorem sim_step {n : Nat} (hn : 0 < n) {s s' : State} {o : List Obs} {e : Event} {sp : Spec}
    (m : Sim n s sp) (hs : step n s e = some (s', o)) : ∃ sp', sp.run n o = some sp' ∧ Sim n s' sp' := by
  obtain ⟨cur, cyc, call, idx⟩ := m
  cases e with
  | call f =>
    simp only [step] at hs
    split at hs <;> simp only [Option.some.injEq, Prod.mk.injEq, reduceCtorEq] at hs
    rename_i hp
    obtain ⟨rfl, rfl⟩ := hs
    have hc := call f
    simp only [hp, ne_eq, not_true_eq_false, decide_false] at hc
    have hif : sp.idx f = none := by have := idx f; rw [hp] at this; exact this
    refine ⟨{ sp with inCall := upd sp.inCall f true }, by simp [Spec.run, Spec.next, hc, hif], cur, cyc, ?_, ?_⟩
    · intro g; simp only [upd_apply]; split <;> simp [call]
    · intro g; have := idx g; simp only [upd_apply]; split
      · subst_vars; rw [hp] at this; exact this
      · exact this
  | elsewhere f k =>
    simp only [step] at hs
    split at hs <;> simp only [Option.some.injEq, Prod.mk.injEq, reduceCtorEq] at hs
    obtain ⟨rfl, rfl⟩ := hs
    exact ⟨sp, rfl, cur, cyc, call, idx⟩
  | run f =>
    have hif := idx f
    have hcf := call f
    -- a step of `f` that neither counts nor returns
    have quiet : ∀ (m : Option Fid) (c : Ctxs) (q : List Waker) (p : Pc), s.pc f ≠ .idle → p ≠ .idle →
        IdxOk n sp (sp.idx f) p → Sim n { s with mtx := m, c := c, q := q, pc := upd s.pc f p } sp := by
      intro m c q p hpf hp hi
      refine ⟨cur, cyc, ?_, ?_⟩
      · intro g; simp only [upd_apply]; split
        · subst_vars; simp [hcf, hp, hpf]
        · exact call g
      · intro g; simp only [upd_apply]; split
        · subst_vars; exact hi
        · exact idx g
    -- a returning step
    have returns : ∀ (m : Option Fid) (c : Ctxs) (q : List Waker) (b : Bool) (i : Nat), sp.idx f = some i →
        sp.complete n (i / n) → b = decide (i % n + 1 = n) →
        ∃ sp', sp.run n [.ret f b] = some sp' ∧ Sim n { s with mtx := m, c := c, q := q, pc := upd s.pc f .idle } sp' := by
      intro m c q b i h1 h2 h3
      refine ⟨{ sp with inCall := upd sp.inCall f false, idx := upd sp.idx f none, rets := sp.rets ++ [(i, b)] },
        by simp [Spec.run, Spec.next, h1, h2, h3], cur, cyc, ?_, ?_⟩
      · intro g; simp only [upd_apply]; split <;> simp [call]
      · intro g; have := idx g; simp only [upd_apply]; split
        · rfl
        · exact idxOk_mono (Nat.le_refl _) this
    simp only [step, run] at hs
    split at hs
    · cases hs
    · rename_i hp
      split at hs <;> simp only [Option.some.injEq, Prod.mk.injEq, reduceCtorEq] at hs
      obtain ⟨rfl, rfl⟩ := hs
      exact ⟨sp, rfl, quiet _ _ _ _ (by simp [hp]) (by simp) (by rw [hp] at hif; exact hif)⟩
    · rename_i hp
      rw [hp] at hif
      simp only [IdxOk] at hif
      have hc : sp.inCall f = true := by simp [hcf, hp]
      have hm := Nat.mod_lt sp.a hn
      have hsd := succ_div_mod (a := sp.a) hn
      split at hs <;> simp only [Option.some.injEq, Prod.mk.injEq] at hs <;> obtain ⟨rfl, rfl⟩ := hs
      · rename_i hcur
        obtain ⟨hd, hmo⟩ := hsd.1 (by omega)
        refine ⟨{ sp with a := sp.a + 1, idx := upd sp.idx f (some sp.a) }, by simp [Spec.run, Spec.next, hc, hif], ?_⟩
        refine ⟨by simp [hmo], by simp [hd, cyc], ?_, ?_⟩
        · intro g; simp only [upd_apply]; split
          · subst_vars; simp [hc]
          · exact call g
        · intro g; simp only [upd_apply]; split
          · refine ⟨sp.a, rfl, by omega, ?_⟩
            simp only [Spec.complete]
            have := Nat.div_add_mod sp.a n
            rw [Nat.add_mul, Nat.mul_comm]; omega
          · exact idxOk_mono (by simp) (idx g)
      · rename_i hcur
        have hne : sp.a % n + 1 ≠ n := by omega
        obtain ⟨hd, hmo⟩ := hsd.2 hne
        refine ⟨{ sp with a := sp.a + 1, idx := upd sp.idx f (some sp.a) }, by simp [Spec.run, Spec.next, hc, hif], ?_⟩
        refine ⟨by simp only [hmo]; omega, by simp [hd, cyc], ?_, ?_⟩
        · intro g; simp only [upd_apply]; split
          · subst_vars; simp [hc]
          · exact call g
        · intro g; simp only [upd_apply]; split
          · exact ⟨sp.a, rfl, cyc.symm, hne, by simp⟩
          · exact idxOk_mono (by simp) (idx g)
    · rename_i hp
      simp only [Option.some.injEq, Prod.mk.injEq] at hs; obtain ⟨rfl, rfl⟩ := hs
      exact ⟨sp, rfl, quiet _ _ _ _ (by simp [hp]) (by simp) (by rw [hp] at hif; exact hif)⟩
    · rename_i hp
      simp only [Option.some.injEq, Prod.mk.injEq] at hs; obtain ⟨rfl, rfl⟩ := hs
      rw [hp] at hif
      obtain ⟨i, h1, h2, h3⟩ := hif
      exact returns _ _ _ _ i h1 h3 (by simp [h2])
    · rename_i cy hp
      rw [hp] at hif
      obtain ⟨i, h1, h2, h3, h4⟩ := hif
      split at hs <;> simp only [Option.some.injEq, Prod.mk.injEq] at hs <;> obtain ⟨rfl, rfl⟩ := hs
      · rename_i hne
        refine returns _ _ _ _ i h1 ?_ (by simp [h3])
        have hle : i / n ≤ sp.a / n := Nat.div_le_div_right (by omega)
        have : i / n + 1 ≤ sp.a / n := by omega
        exact (Nat.le_div_iff_mul_le hn).1 this
      · exact ⟨sp, rfl, quiet _ _ _ _ (by simp [hp]) (by simp) ⟨i, h1, h2, h3, h4⟩⟩
    · rename_i cy ep hp
      split at hs <;> simp only [Option.some.injEq, Prod.mk.injEq, reduceCtorEq] at hs
      obtain ⟨rfl, rfl⟩ := hs
      exact ⟨sp, rfl, quiet _ _ _ _ (by simp [hp]) (by simp) (by rw [hp] at hif; exact hif)⟩
    · rename_i cy hp
      split at hs <;> simp only [Option.some.injEq, Prod.mk.injEq, reduceCtorEq] at hs
      obtain ⟨rfl, rfl⟩ := hs
      exact ⟨sp, rfl, quiet _ _ _ _ (by simp [hp]) (by simp) (by rw [hp] at hif; exact hif)⟩

theorem refine_sim {n : Nat} (hn : 0 < n) {s : State} {tr : List Obs} (h : Reach (step n) (init n) s tr) :
    ∃ sp, Spec.init.run n tr = some sp ∧ Sim n s sp := by
  refine Reach.inv (fun s tr => ∃ sp, Spec.init.run n tr = some sp ∧ Sim n s sp) ⟨_, rfl, sim_init⟩ ?_ h
  rintro s tr e s' o hr ⟨sp, h1, h2⟩ hs
  obtain ⟨sp', h3, h4⟩ := sim_step hn h2 hs
  exact ⟨sp', by rw [Spec.run_append h1]; exact h3, h4⟩

/-! ## C14 and C15 -/

/-- What the specification's log of returns looks like, for any accepted trace. -/
structure LogOk (n : Nat) (sp : Spec) : Prop where
  ok    : ∀ r ∈ sp.rets, sp.complete n (r.1 / n) ∧ r.2 = decide (r.1 % n + 1 = n)
  nodup : (sp.rets.map (·.1)).Nodup
  fresh : ∀ r ∈ sp.rets, r.1 < sp.a
  cur   : ∀ f i, sp.idx f = some i → i < sp.a ∧ ∀ r ∈ sp.rets, r.1 ≠ i
  inj   : ∀ f g i, sp.idx f = some i → sp.idx g = some i → f = g

theorem logOk_run {n : Nat} (tr : List Obs) : ∀ sp sp' : Spec, LogOk n sp → sp.run n tr = some sp' → LogOk n sp' := by
  induction tr with
  | nil => intro sp sp' h hr; simp only [Spec.run, Option.some.injEq] at hr; subst hr; exact h
  | cons o os ih =>
    intro sp sp' h hr
    simp only [Spec.run] at hr
    split at hr
    · cases hr
    · rename_i sp1 h1
      refine ih sp1 sp' ?_ hr
      obtain ⟨a1, a2, a3, a4, a5⟩ := h
      cases o with
      | called f =>
        simp only [Spec.next] at h1
        split at h1 <;> simp only [Option.some.injEq, reduceCtorEq] at h1
        subst h1; exact ⟨a1, a2, a3, a4, a5⟩
      | arrived f =>
        simp only [Spec.next] at h1
        split at h1 <;> simp only [Option.some.injEq, reduceCtorEq] at h1
        subst h1
        refine ⟨?_, a2, ?_, ?_, ?_⟩
        · intro r hr; have := a1 r hr; simp only [Spec.complete] at this ⊢; exact ⟨by omega, this.2⟩
        · intro r hr; have := a3 r hr; simp only; omega
        · intro g i hg
          simp only [upd_apply] at hg
          split at hg
          · simp only [Option.some.injEq] at hg; subst hg
            exact ⟨by simp, fun r hr => Nat.ne_of_lt (a3 r hr)⟩
          · have := a4 g i hg; exact ⟨by simp only; omega, this.2⟩
        · intro g g' i hg hg'
          simp only [upd_apply] at hg hg'
          split at hg <;> split at hg'
          · simp_all
          · have := a4 g' i hg'; simp only [Option.some.injEq] at hg; omega
          · have := a4 g i hg; simp only [Option.some.injEq] at hg'; omega
          · exact a5 g g' i hg hg'
      | ret f b =>
        simp only [Spec.next] at h1
        split at h1
        · cases h1
        · rename_i i hi
          split at h1 <;> simp only [Option.some.injEq, reduceCtorEq] at h1
          rename_i hc
          subst h1
          refine ⟨?_, ?_, ?_, ?_, ?_⟩
          · intro r hr
            simp only [List.mem_append, List.mem_singleton] at hr
            rcases hr with hr | rfl
            · exact a1 r hr
            · exact hc
          · simp only [List.map_append, List.map_cons, List.map_nil]
            rw [List.nodup_append]
            refine ⟨a2, by simp, ?_⟩
            intro x hx y hy
            simp only [List.mem_map] at hx
            obtain ⟨r, hr2, hr3⟩ := hx
            simp only [List.mem_singleton] at hy; subst hr3 hy
            exact (a4 f _ hi).2 r hr2
          · intro r hr
            simp only [List.mem_append, List.mem_singleton] at hr
            rcases hr with hr | hr
            · exact a3 r hr
            · subst hr; exact (a4 f _ hi).1
          · intro g j hg
            simp only [upd_apply] at hg
            split at hg
            · cases hg
            · rename_i hgf
              have := a4 g j hg
              refine ⟨this.1, ?_⟩
              intro r hr
              simp only [List.mem_append, List.mem_singleton] at hr
              rcases hr with hr | rfl
              · exact this.2 r hr
              · rintro rfl; exact hgf (a5 g f _ hg hi)
          · intro g g' j hg hg'
            simp only [upd_apply] at hg hg'
            split at hg <;> split at hg' <;> simp_all
            exact a5 g g' j hg hg'

theorem reach_log {n : Nat} (hn : 0 < n) {s : State} {tr : List Obs} (h : Reach (step n) (init n) s tr) :
    ∃ sp, Spec.init.run n tr = some sp ∧ LogOk n sp := by
  obtain ⟨sp, h1, -⟩ := refine_sim hn h
  refine ⟨sp, h1, logOk_run tr _ _ ?_ h1⟩
  constructor <;> simp [Spec.init]

/-- **C14.** Every trace of `barrier(n)` conforms to the specification; spelled out: when `wait()` returns to a
fiber, at least `(k + 1) * n` calls have been counted, where `k` is the batch of that fiber's own call. -/
theorem nobody_passes_early {n : Nat} (hn : 0 < n) {s s' : State} {tr o : List Obs} {e : Event} {f : Fid} {b : Bool}
    (h : Reach (step n) (init n) s tr) (hs : step n s e = some (s', o)) (hm : Obs.ret f b ∈ o) :
    ∃ sp i, Spec.init.run n tr = some sp ∧ sp.idx f = some i ∧ i < sp.a ∧ (i / n + 1) * n ≤ sp.a ∧
      b = decide (i % n + 1 = n) := by
  obtain ⟨sp, h1, hl⟩ := reach_log hn h
  obtain ⟨sp', h2, -⟩ := refine_sim hn (Reach.tail e h hs)
  rw [Spec.run_append h1] at h2
  have ho : o = [.ret f b] := by
    cases e with
    | run g => simp only [step, run] at hs; grind
    | _ => simp only [step] at hs; grind
  subst ho
  simp only [Spec.run, Spec.next] at h2
  cases hi : sp.idx f with
  | none => simp [hi] at h2
  | some i =>
    simp only [hi] at h2
    split at h2
    · cases h2
    · rename_i hx
      split at hx
      · rename_i hc; exact ⟨sp, i, h1, hi, (hl.cur f i hi).1, hc.1, hc.2⟩
      · cases hx

/-- Number of calls made / counted, read off the trace. -/
def callsOf (f : Fid) (tr : List Obs) : Nat := tr.countP fun o => decide (o = .called f)
def countedOf (f : Fid) (tr : List Obs) : Nat := tr.countP fun o => decide (o = .arrived f)
def counted (tr : List Obs) : Nat := tr.countP fun o => match o with | .arrived _ => true | _ => false

theorem counts_run {n : Nat} (tr : List Obs) : ∀ sp sp' : Spec, sp.run n tr = some sp' →
    sp'.a = sp.a + counted tr ∧
    ∀ f, countedOf f tr + (if sp'.inCall f ∧ sp'.idx f = none then 1 else 0) =
      callsOf f tr + (if sp.inCall f ∧ sp.idx f = none then 1 else 0) := by
  induction tr with
  | nil => intro sp sp' hr; simp only [Spec.run, Option.some.injEq] at hr; subst hr; simp [counted, countedOf, callsOf]
  | cons o os ih =>
    intro sp sp' hr
    simp only [Spec.run] at hr
    split at hr
    · cases hr
    · rename_i sp1 h1
      obtain ⟨i1, i2⟩ := ih sp1 sp' hr
      cases o with
      | called f =>
        simp only [Spec.next] at h1
        split at h1 <;> simp only [Option.some.injEq, reduceCtorEq] at h1
        subst h1
        refine ⟨by simpa [counted] using i1, ?_⟩
        intro g; have := i2 g
        simp only [countedOf, callsOf, upd_apply, List.countP_cons, decide_eq_true_eq, reduceCtorEq,
          Obs.called.injEq, Obs.arrived.injEq] at this ⊢
        by_cases hgf : f = g
        · subst hgf; simp_all; try omega
        · simp_all [Ne.symm hgf]
      | arrived f =>
        simp only [Spec.next] at h1
        split at h1 <;> simp only [Option.some.injEq, reduceCtorEq] at h1
        subst h1
        refine ⟨by simp [counted] at i1 ⊢; omega, ?_⟩
        intro g; have := i2 g
        simp only [countedOf, callsOf, upd_apply, List.countP_cons, decide_eq_true_eq, reduceCtorEq,
          Obs.called.injEq, Obs.arrived.injEq] at this ⊢
        by_cases hgf : f = g
        · subst hgf; simp_all; try omega
        · simp_all [Ne.symm hgf]
      | ret f b =>
        simp only [Spec.next] at h1
        split at h1
        · cases h1
        · split at h1 <;> simp only [Option.some.injEq, reduceCtorEq] at h1
          subst h1
          refine ⟨by simpa [counted] using i1, ?_⟩
          intro g; have := i2 g
          simp only [countedOf, callsOf, upd_apply, List.countP_cons, decide_eq_true_eq, reduceCtorEq] at this ⊢
          by_cases hgf : f = g
          · subst hgf; simp_all
          · simp_all [Ne.symm hgf]

/-- **C14.** What "counted" means: the number of calls counted is the number of `arrived` events, and no fiber
is counted more often than it has called `wait()`. -/
theorem counted_calls_were_made {n : Nat} (hn : 0 < n) {s : State} {tr : List Obs}
    (h : Reach (step n) (init n) s tr) :
    (∃ sp, Spec.init.run n tr = some sp ∧ sp.a = counted tr) ∧ ∀ f, countedOf f tr ≤ callsOf f tr := by
  obtain ⟨sp, h1, -⟩ := refine_sim hn h
  obtain ⟨i1, i2⟩ := counts_run tr _ _ h1
  refine ⟨⟨sp, h1, by simpa [Spec.init] using i1⟩, ?_⟩
  intro f; have := i2 f
  simp only [Spec.init] at this
  simp at this
  omega

/-- The returns of batch `k`. -/
def Spec.batch (sp : Spec) (n k : Nat) : List (Nat × Bool) := sp.rets.filter fun r => decide (r.1 / n = k)

theorem count_last {n k : Nat} (hn : 0 < n) (l : List (Nat × Bool)) (hnd : (l.map (·.1)).Nodup)
    (hk : ∀ r ∈ l, r.1 / n = k) (hb : ∀ r ∈ l, r.2 = decide (r.1 % n + 1 = n)) :
    l.countP (·.2) ≤ 1 ∧ (l.length = n → l.countP (·.2) = 1) ∧ l.length ≤ n := by
  have hval : ∀ r ∈ l, r.1 = n * k + r.1 % n := by
    intro r hr; have := Nat.div_add_mod r.1 n; rw [hk r hr] at this; omega
  have hsub : (l.map (·.1)) ⊆ List.range' (n * k) n := by
    intro x hx
    simp only [List.mem_map] at hx
    obtain ⟨r, hr, rfl⟩ := hx
    have := hval r hr
    have := Nat.mod_lt r.1 hn
    simp only [List.mem_range'_1]; omega
  have hlen := (List.subperm_of_subset hnd hsub).length_le
  simp only [List.length_map, List.length_range'] at hlen
  have hcount : l.countP (·.2) = (l.map (·.1)).count (n * k + (n - 1)) := by
    rw [List.count_eq_countP, List.countP_map]
    refine List.countP_congr ?_
    intro r hr
    have h1 := hval r hr
    have h2 := Nat.mod_lt r.1 hn
    simp only [Function.comp_apply, beq_iff_eq, hb r hr, decide_eq_true_eq]
    omega
  have hle : l.countP (·.2) ≤ 1 := by rw [hcount]; exact List.nodup_iff_count.1 hnd _
  refine ⟨hle, ?_, hlen⟩
  intro hl
  rw [hcount]
  have hmem : n * k + (n - 1) ∈ l.map (·.1) → (l.map (·.1)).count (n * k + (n - 1)) = 1 := by
    intro hm
    have h1 := List.nodup_iff_count.1 hnd (n * k + (n - 1))
    have h2 := List.count_pos_iff.2 hm
    omega
  apply hmem
  refine Classical.byContradiction fun hno => ?_
  have hsub' : (l.map (·.1)) ⊆ List.range' (n * k) (n - 1) := by
    intro x hx
    have h1 := hsub hx
    simp only [List.mem_range'_1] at h1 ⊢
    have : x ≠ n * k + (n - 1) := by rintro rfl; exact hno hx
    omega
  have := (List.subperm_of_subset hnd hsub').length_le
  simp only [List.length_map, List.length_range'] at this
  omega

/-- **C15.** In every reachable history and for every batch `k`: at most one call of the batch has returned
`true`; no more than `n` calls of the batch have returned; and once all `n` have returned, exactly one of them
returned `true` and the other `n - 1` returned `false`. -/
theorem one_true_per_batch {n : Nat} (hn : 0 < n) {s : State} {tr : List Obs}
    (h : Reach (step n) (init n) s tr) (k : Nat) :
    ∃ sp, Spec.init.run n tr = some sp ∧
      (sp.batch n k).countP (·.2) ≤ 1 ∧ (sp.batch n k).length ≤ n ∧
      ((sp.batch n k).length = n →
        (sp.batch n k).countP (·.2) = 1 ∧ (sp.batch n k).countP (fun r => !r.2) = n - 1) := by
  obtain ⟨sp, h1, hl⟩ := reach_log hn h
  obtain ⟨c1, c2, c3⟩ := count_last (k := k) hn (sp.batch n k)
    ((List.filter_sublist.map _).nodup hl.nodup)
    (by intro r hr; simpa [Spec.batch] using (List.mem_filter.1 hr).2)
    (fun r hr => (hl.ok r (List.mem_filter.1 hr).1).2)
  refine ⟨sp, h1, c1, c3, ?_⟩
  intro hlen
  refine ⟨c2 hlen, ?_⟩
  have := List.length_eq_countP_add_countP (fun r : Nat × Bool => r.2) (l := sp.batch n k)
  have hne : (sp.batch n k).countP (fun r => decide ¬ (r.2 = true)) = (sp.batch n k).countP (fun r => !r.2) := by
    refine List.countP_congr ?_
    intro r _; cases r.2 <;> simp
  rw [hne, c2 hlen] at this
  omega

/-- **C15.** `barrier(0)` throws `invalid_argument`, every other size constructs a barrier. -/
theorem construct_iff (n : Nat) :
    (n = 0 → construct n = .error .invalidArgument) ∧ (0 < n → construct n = .ok (init n)) := by
  constructor
  · rintro rfl; rfl
  · intro h; rw [construct, if_neg (by omega)]; rfl

/-! ## C16 -/

/-- **C16.** A fiber of a completed batch is never stuck: if its batch is complete and it has not returned yet,
then some fiber inside `wait()` can take a step — it can itself run, or the fiber whose arrival completed the
batch is on its way to announce it, or a fiber holds the barrier's mutex. -/
theorem completed_batch_progress {n : Nat} (hn : 0 < n) {s : State} {tr : List Obs}
    (h : Reach (step n) (init n) s tr) :
    ∃ sp, Spec.init.run n tr = some sp ∧
      ∀ f i, sp.idx f = some i → sp.complete n (i / n) → ∃ g, step n s (.run g) ≠ none := by
  obtain ⟨sp, h1, m⟩ := refine_sim hn h
  refine ⟨sp, h1, ?_⟩
  intro f i hi hc
  have inv := reach_inv h
  have hif := m.idx f
  have holder : ∀ g, s.mtx = some g → ∃ g, step n s (.run g) ≠ none := by
    intro g hg
    have hp := (inv.hl g).1 hg
    refine ⟨g, ?_⟩
    cases hpc : s.pc g <;> simp only [hpc, hasLock, Bool.false_eq_true] at hp <;> simp only [step, run, hpc] <;>
      first | (split <;> simp) | simp
  have lock : (s.mtx = none → step n s (.run f) ≠ none) → ∃ g, step n s (.run g) ≠ none := by
    intro hfree
    cases hm : s.mtx with
    | none => exact ⟨f, hfree hm⟩
    | some g => exact holder g hm
  cases hp : s.pc f <;> rw [hp] at hif <;> simp only [IdxOk, hi, reduceCtorEq] at hif
  case unlocking => exact ⟨f, by simp [step, run, hp]⟩
  case notifying => exact ⟨f, by simp [step, run, hp]⟩
  case check cyc => exact holder f ((inv.hl f).2 (by simp [hp, hasLock]))
  case relocking cyc => exact lock fun hm => by simp [step, run, hp, hm]
  case waiting cyc ep =>
    cases hr : s.c.ready f with
    | true => exact ⟨f, by simp [step, run, hp, hr]⟩
    | false =>
      obtain ⟨j, hj, h2, -⟩ := hif
      simp only [Option.some.injEq] at hj; subst hj
      have hne : cyc ≠ s.cycle := by
        have := (Nat.le_div_iff_mul_le hn).2 hc
        have := m.cyc
        omega
      obtain ⟨g, hg⟩ := inv.ann f cyc ep hp hr hne
      refine ⟨g, ?_⟩
      cases hpg : s.pc g <;> simp [hpg, isAnnouncing] at hg <;> simp [step, run, hpg]

/-- **C16**, as quiescence: when no fiber inside `wait()` can take another step, every fiber still inside
belongs to the one batch that is not complete, and at most `n - 1` calls of it have been counted. -/
theorem quiescent_only_incomplete {n : Nat} (hn : 0 < n) {s : State} {tr : List Obs}
    (h : Reach (step n) (init n) s tr) (hq : ∀ g, step n s (.run g) = none) :
    ∃ sp, Spec.init.run n tr = some sp ∧ ∀ f, sp.inCall f = true →
      ∃ i, sp.idx f = some i ∧ i / n = sp.a / n ∧ sp.a < (i / n + 1) * n := by
  obtain ⟨sp, h1, hprog⟩ := completed_batch_progress hn h
  obtain ⟨sp', h1', m⟩ := refine_sim hn h
  rw [h1] at h1'; cases h1'
  obtain ⟨sp', h1', hl⟩ := reach_log hn h
  rw [h1] at h1'; cases h1'
  refine ⟨sp, h1, ?_⟩
  intro f hf
  have inv := reach_inv h
  have hfree : s.mtx = none := by
    cases hm : s.mtx with
    | none => rfl
    | some g =>
      exfalso
      have hp := (inv.hl g).1 hm
      have := hq g
      cases hpc : s.pc g <;> simp only [hpc, hasLock, Bool.false_eq_true] at hp <;> simp only [step, run, hpc] at this <;>
        first | (split at this <;> simp at this) | simp at this
  cases hi : sp.idx f with
  | none =>
    exfalso
    have hif := m.idx f
    rw [hi] at hif
    have hc := m.call f
    have hqf := hq f
    cases hp : s.pc f <;> simp only [hp, IdxOk, reduceCtorEq, false_and, exists_false] at hif
    · simp [hp, hf] at hc
    · simp [step, run, hp, hfree] at hqf
    · simp only [step, run, hp] at hqf; split at hqf <;> simp at hqf
  | some i =>
    refine ⟨i, rfl, ?_⟩
    have hnc : ¬ sp.complete n (i / n) := by
      intro hc
      obtain ⟨g, hg⟩ := hprog f i hi hc
      exact hg (hq g)
    simp only [Spec.complete, Nat.not_le] at hnc
    refine ⟨?_, hnc⟩
    have hlt := (hl.cur f i hi).1
    have h3 : i / n ≤ sp.a / n := Nat.div_le_div_right (by omega)
    have h4 : sp.a / n < i / n + 1 := (Nat.div_lt_iff_lt_mul hn).2 hnc
    omega

/-! ## Non-vacuity: two batches on `barrier(2)`, the second one begun before the first has drained -/

/-- Fibers 1 and 2 form batch 0; 2 completes it, and calls again (batch 1) before 1 has woken up. -/
def demo : List Event :=
  [.call 1, .run 1, .run 1, .run 1,             -- 1 counted, enqueued
   .call 2, .run 2, .run 2, .run 2, .run 2,     -- 2 completes the batch, returns true
   .call 2, .run 2, .run 2, .run 2,             -- 2 again: counted into batch 1, sleeps
   .run 1, .run 1, .run 1]                      -- 1 resumes, relocks, returns false

example : ∃ s, Reach (step 2) (init 2) s
    [.called 1, .arrived 1, .called 2, .arrived 2, .ret 2 true, .called 2, .arrived 2, .ret 1 false] :=
  ⟨_, reach_of_exec (es := demo) rfl⟩

/-- Hypotheses of `one_true_per_batch` with a full batch. -/
example : ∃ sp, Spec.init.run 2
    [.called 1, .arrived 1, .called 2, .arrived 2, .ret 2 true, .called 2, .arrived 2, .ret 1 false] = some sp ∧
    sp.batch 2 0 = [(1, true), (0, false)] ∧ sp.idx 2 = some 2 ∧ ¬ sp.complete 2 1 :=
  ⟨_, rfl, by decide, by decide, by decide⟩

/-- A completed batch with a member still asleep (hypothesis of `completed_batch_progress`). -/
example : ∃ s tr, Reach (step 2) (init 2) s tr ∧ s.pc 1 = .waiting 0 1 ∧ s.cycle = 1 ∧ s.c.ready 1 = false :=
  ⟨_, _, reach_of_exec (es := [.call 1, .run 1, .run 1, .run 1, .call 2, .run 2, .run 2]) rfl, rfl, rfl, rfl⟩

/-- The specification rejects passing early, and a batch with two `true`s. -/
example : Spec.init.run 2 [.called 1, .arrived 1, .ret 1 false] = none := rfl
example : Spec.init.run 2 [.called 1, .arrived 1, .called 2, .arrived 2, .ret 2 true, .ret 1 true] = none := rfl

end Verif.Barrier
