import Verif.MutexLemmas

/-!
# Properties C01–C06: the four mutex classes
-/

namespace Verif.Mutex

/-! ## Specification

What a user can see: who holds the mutex and how often (counting completed calls), and who is suspended
on it, longest first. -/

structure Spec where
  holder  : Option (Fid × Nat)
  waiting : List Fid

def Spec.init : Spec := { holder := none, waiting := [] }

/-- `f` holds the mutex. -/
def Spec.holds (sp : Spec) (f : Fid) : Bool :=
  match sp.holder with
  | some (g, _) => g == f
  | none => false

/-- A call that reports "acquired" is legal only if nobody holds the mutex, or the caller does and the
mutex is recursive. -/
def Spec.grant (k : Kind) (sp : Spec) (f : Fid) : Option Spec :=
  if f ∈ sp.waiting then none
  else match sp.holder with
    | none => some { sp with holder := some (f, 1) }
    | some (g, n) => if g = f ∧ k.isRec = true then some { sp with holder := some (f, n + 1) } else none

/-- Which observations are legal, and what they do. -/
def Spec.next (k : Kind) (sp : Spec) : Obs → Option Spec
  | .called _ _ => some sp
  | .lockRet f => sp.grant k f
  | .tryRet f true => sp.grant k f
  | .tryRet f false => if sp.holds f ∨ f ∈ sp.waiting then none else some sp
  | .untilRet f _ true _ => sp.grant k f
  | .untilRet f d false t => if d ≤ t ∧ f ∉ sp.waiting then some sp else none
  | .unlockRet f woken =>
    match sp.holder with
    | none => none
    | some (g, n) =>
      if g ≠ f then none
      else if n = 1 then
        if woken = sp.waiting.head? then some { holder := none, waiting := sp.waiting.tail } else none
      else if woken = none then some { sp with holder := some (f, n - 1) } else none
  | .threw f .lock e => if e = .deadlock ∧ sp.holds f = true ∧ k.isRec = false then some sp else none
  | .threw f .tryLock e => if e = .deadlock ∧ sp.holds f = true ∧ k.isRec = false then some sp else none
  | .threw f .unlock e => if e = .notPermitted ∧ sp.holds f = false then some sp else none
  | .threw _ (.tryLockUntil _) _ => none
  | .blocks f =>
    if f ∈ sp.waiting ∨ (sp.holds f = true ∧ k ≠ .timed) then none
    else some { sp with waiting := sp.waiting ++ [f] }
  | .expired f =>
    if f ∈ sp.waiting then some { sp with waiting := sp.waiting.filter (· ≠ f) } else none

def Spec.run (k : Kind) (sp : Spec) : List Obs → Option Spec
  | [] => some sp
  | o :: os => (sp.next k o).bind (fun sp' => sp'.run k os)

theorem Spec.run_append (k : Kind) (os os' : List Obs) : ∀ sp : Spec,
    sp.run k (os ++ os') = (sp.run k os).bind (fun sp' => sp'.run k os') := by
  induction os with
  | nil => intro sp; rfl
  | cons o os ih =>
    intro sp
    simp only [List.cons_append, Spec.run]
    cases sp.next k o with
    | none => rfl
    | some sp' => exact ih sp'

/-! ## Refinement -/

/-- Depth stored in the mutex while it is owned. -/
def depthOf (k : Kind) (m : M) : Nat := if k.isRec = true then m.count else 1

/-- The holder as a user sees it: a successful `try_lock` counts from its return. -/
def absHolder (k : Kind) (s : State) : Option (Fid × Nat) :=
  match s.m.owner with
  | none => none
  | some f =>
    if s.pc f = .tryYield then
      (if depthOf k s.m = 1 then none else some (f, depthOf k s.m - 1))
    else some (f, depthOf k s.m)

def abs (k : Kind) (s : State) : Spec := { holder := absHolder k s, waiting := liveList s.c s.q }

theorem holds_abs {k : Kind} {s : State} {f : Fid} (hp : s.pc f ≠ .tryYield) :
    (abs k s).holds f = true ↔ s.m.owner = some f := by
  unfold Spec.holds abs absHolder
  cases ho : s.m.owner with
  | none => simp
  | some g =>
    simp only
    by_cases hg : g = f
    · subst hg; simp [hp]
    · split <;> rename_i h <;> grind

theorem not_waiting {k : Kind} {s : State} (h : Inv k s) {f : Fid} (hf : regOf (s.pc f) = none) :
    f ∉ liveList s.c s.q := by
  rw [mem_liveList h.qi]; simp [hf]

theorem absHolder_frame {k : Kind} {s s' : State} (hm : s'.m = s.m)
    (hp : ∀ g, s'.pc g = .tryYield ↔ s.pc g = .tryYield) : absHolder k s' = absHolder k s := by
  unfold absHolder
  rw [hm]
  cases ho : s.m.owner with
  | none => rfl
  | some g => simp only [hp g]

theorem abs_ext {k : Kind} {s : State} {sp : Spec} (h1 : sp.holder = absHolder k s)
    (h2 : sp.waiting = liveList s.c s.q) : sp = abs k s := by
  cases sp; simp only at h1 h2; subst h1 h2; rfl

/-- Acquiring, as seen by the specification. -/
theorem grant_abs {k : Kind} {s : State} {f : Fid} {m : M} (h : Inv k s) (hf : regOf (s.pc f) = none)
    (hp : s.pc f ≠ .tryYield)
    (hm : (s.m.owner = some f ∧ k.isRec = true ∧ m = { s.m with count := s.m.count + 1 }) ∨
      (s.m.owner = none ∧ m = if k.isRec = true then { owner := some f, count := 1 } else { s.m with owner := some f })) :
    (abs k s).grant k f = some (abs k { s with m := m, pc := upd s.pc f .idle }) := by
  have hnw := not_waiting h hf
  have hw : f ∉ (abs k s).waiting := hnw
  simp only [Spec.grant, hw, if_false]
  rcases hm with ⟨ho, hk, rfl⟩ | ⟨ho, rfl⟩
  · have : (abs k s).holder = some (f, s.m.count) := by
      simp [abs, absHolder, ho, hp, depthOf, hk]
    simp only [this, hk, and_self, if_true]
    congr 1
    apply abs_ext
    · simp [absHolder, ho, depthOf, hk]
    · rfl
  · have : (abs k s).holder = none := by simp [abs, absHolder, ho]
    simp only [this]
    congr 1
    apply abs_ext
    · cases hk : k.isRec <;> simp [absHolder, depthOf, hk]
    · rfl

theorem block_abs {k : Kind} {s : State} {f : Fid} {p : Pc} (h : Inv k s) (hf : regOf (s.pc f) = none)
    (hp : s.pc f ≠ .tryYield) (hp' : p ≠ .tryYield) (ho : s.m.owner = some f → k = .timed) :
    (abs k s).run k [.blocks f] =
      some (abs k { s with c := (enqueue s.c s.q f).1, q := (enqueue s.c s.q f).2, pc := upd s.pc f p }) := by
  have hnw := not_waiting h hf
  have hw : f ∉ (abs k s).waiting := hnw
  have hh : ¬ ((abs k s).holds f = true ∧ k ≠ .timed) := by
    rw [holds_abs hp]; rintro ⟨a, b⟩; exact b (ho a)
  simp only [Spec.run, Spec.next, hw, hh, or_self, if_false, Option.bind_some]
  congr 1
  apply abs_ext
  · symm; apply absHolder_frame
    · rfl
    · intro g; simp only [upd_apply]; split
      · subst_vars; simp [hp, hp']
      · rfl
  · exact (liveList_enqueue (h.qi.not_mem_of_none hf)).symm

theorem threw_abs {k : Kind} {s : State} {f : Fid} {p : Pc}
    (hp : s.pc f ≠ .tryYield) (hp' : p ≠ .tryYield) :
    abs k s = abs k { s with pc := upd s.pc f p } := by
  apply abs_ext
  · symm; apply absHolder_frame
    · rfl
    · intro g; simp only [upd_apply]; split
      · subst_vars; simp [hp, hp']
      · rfl
  · rfl

theorem refine_run {k : Kind} {s s' : State} {o : List Obs} {f : Fid} (h : Inv k s)
    (hs : run k s f = some (s', o)) : (abs k s).run k o = some (abs k s') := by
  have tk := h.tk f
  have cnt := h.cnt
  have hnw : regOf (s.pc f) = none → f ∉ liveList s.c s.q := not_waiting h
  have hha : s.pc f ≠ .tryYield → ((abs k s).holds f = true ↔ s.m.owner = some f) := holds_abs
  simp only [run] at hs
  split at hs
  · cases hs
  · rename_i hp
    have hreg : regOf (s.pc f) = none := by simp [hp, regOf]
    have hpy : s.pc f ≠ .tryYield := by simp [hp]
    have hha := hha hpy
    rw [lockCS_eq] at hs
    split at hs <;> simp only [Option.some.injEq, Prod.mk.injEq] at hs <;> obtain ⟨rfl, rfl⟩ := hs
    · rename_i e hcs
      have : (abs k s).holds f = true ∧ k.isRec = false := by grind
      have he : e = Err.deadlock := by grind
      simp only [Spec.run, Spec.next, this, he, and_self, if_true, Option.bind_some]
      rw [← threw_abs hpy (by simp)]
    · rename_i m hcs
      simp only [Spec.run, Spec.next]
      rw [grant_abs (m := m) h hreg hpy (by grind)]; rfl
    · exact block_abs h hreg hpy (by simp) (by grind)
  · rename_i ep hp
    split at hs <;> simp only [Option.some.injEq, Prod.mk.injEq, reduceCtorEq] at hs
    obtain ⟨rfl, rfl⟩ := hs
    simp only [Spec.run]; congr 1
    apply abs_ext
    · symm; apply absHolder_frame
      · rfl
      · intro g; simp only [upd_apply]; split <;> simp_all
    · rfl
  · rename_i hp
    have hreg : regOf (s.pc f) = none := by simp [hp, regOf]
    have hpy : s.pc f ≠ .tryYield := by simp [hp]
    have hha := hha hpy
    rw [tryCS_eq] at hs
    split at hs <;> simp only [Option.some.injEq, Prod.mk.injEq] at hs <;> obtain ⟨rfl, rfl⟩ := hs
    · rename_i e hcs
      have : (abs k s).holds f = true ∧ k.isRec = false := by grind
      have he : e = Err.deadlock := by grind
      simp only [Spec.run, Spec.next, this, he, and_self, if_true, Option.bind_some]
      rw [← threw_abs hpy (by simp)]
    · rename_i m hcs
      simp only [Spec.run]; congr 1
      apply abs_ext
      · simp only [abs, absHolder]
        grind [depthOf, upd_apply]
      · rfl
  · rename_i hp
    simp only [Option.some.injEq, Prod.mk.injEq] at hs; obtain ⟨rfl, rfl⟩ := hs
    have hreg : regOf (s.pc f) = none := by simp [hp, regOf]
    have hnw : f ∉ (abs k s).waiting := hnw hreg
    by_cases ho : s.m.owner = some f
    · have hd : 1 ≤ depthOf k s.m := by grind [depthOf]
      have hh' : absHolder k { s with pc := upd s.pc f .idle } = some (f, depthOf k s.m) := by
        simp [absHolder, ho]
      have hh : (abs k s).holder = if depthOf k s.m = 1 then none else some (f, depthOf k s.m - 1) := by
        simp [abs, absHolder, ho, hp]
      simp only [ho, decide_true, Spec.run, Spec.next, Spec.grant, hnw, if_false, hh]
      by_cases h1 : depthOf k s.m = 1
      · simp only [h1, if_true, Option.bind_some]; congr 1
        apply abs_ext
        · rw [hh', h1]
        · rfl
      · have hk : k.isRec = true := by grind [depthOf]
        simp only [h1, if_false, hk, and_self, if_true, Option.bind_some]; congr 1
        apply abs_ext
        · rw [hh']; simp only; congr 2; omega
        · rfl
    · have hh : (abs k s).holds f = false := by
        simp only [abs, absHolder, Spec.holds]; grind
      simp only [ho, decide_false, Spec.run, Spec.next, hnw, hh, Bool.false_eq_true, or_self, if_false,
        Option.bind_some]
      congr 1
      apply abs_ext
      · simp only [abs, absHolder]; grind [upd_apply]
      · rfl
  · rename_i d hp
    have hreg : regOf (s.pc f) = none := by simp [hp, regOf]
    have hpy : s.pc f ≠ .tryYield := by simp [hp]
    have hnw : f ∉ (abs k s).waiting := hnw hreg
    split at hs <;> simp only [Option.some.injEq, Prod.mk.injEq] at hs <;> obtain ⟨rfl, rfl⟩ := hs
    · rename_i hd
      have hd' : d ≤ s.now := by omega
      simp only [Spec.run, Spec.next, hd', hnw, not_false_eq_true, and_self, if_true, Option.bind_some]
      rw [← threw_abs hpy (by simp)]
    · simp only [Spec.run]; rw [← threw_abs hpy (by simp)]
  · rename_i d hp
    have hreg : regOf (s.pc f) = none := by simp [hp, regOf]
    have hpy : s.pc f ≠ .tryYield := by simp [hp]
    have hkt := tk (by simp [hp, isUntil])
    rw [untilCS_eq _ _ _ hkt] at hs
    split at hs <;> simp only [Option.some.injEq, Prod.mk.injEq] at hs <;> obtain ⟨rfl, rfl⟩ := hs
    · rename_i hcs; grind
    · rename_i m hcs
      simp only [Spec.run, Spec.next]
      rw [grant_abs (m := m) h hreg hpy (by grind)]; rfl
    · rename_i hcs
      refine block_abs h hreg hpy (by simp) ?_
      intro ho; rw [if_pos ho] at hcs
      cases k <;> simp_all [Kind.isRec, Kind.hasTimed]
  · rename_i ep d hp
    have hpy : s.pc f ≠ .tryYield := by simp [hp]
    split at hs <;> try simp only [reduceCtorEq] at hs
    split at hs <;> simp only [Option.some.injEq, Prod.mk.injEq] at hs <;> obtain ⟨rfl, rfl⟩ := hs <;>
    · simp only [Spec.run]; congr 1
      apply abs_ext
      · symm; apply absHolder_frame
        · rfl
        · intro g; simp only [upd_apply]; split <;> simp_all
      · rfl
  · rename_i ep d hp
    simp only [Option.some.injEq, Prod.mk.injEq] at hs; obtain ⟨rfl, rfl⟩ := hs
    have hu := h.unl f ep d hp
    have hw : f ∉ (abs k s).waiting := by
      show f ∉ liveList s.c s.q
      rw [mem_liveList h.qi]; rintro ⟨r, hr, he⟩
      simp [hp, regOf] at hr; subst hr; simp only at he; omega
    simp only [Spec.run, Spec.next, hu.2.2, hw, not_false_eq_true, and_self, if_true, Option.bind_some]
    congr 1
    apply abs_ext
    · symm; apply absHolder_frame
      · rfl
      · intro g; simp only [upd_apply]; split <;> simp_all
    · exact (liveList_unlink (by omega)).symm
  · rename_i hp
    have hreg : regOf (s.pc f) = none := by simp [hp, regOf]
    have hpy : s.pc f ≠ .tryYield := by simp [hp]
    have hha := hha hpy
    rw [unlockCS_eq] at hs
    split at hs <;> simp only [Option.some.injEq, Prod.mk.injEq] at hs <;> obtain ⟨rfl, rfl⟩ := hs
    · rename_i e hcs
      have : (abs k s).holds f = false := by grind
      have he : e = Err.notPermitted := by grind
      simp only [Spec.run, Spec.next, this, he, and_self, if_true, Option.bind_some]
      rw [← threw_abs hpy (by simp)]
    · rename_i m hcs
      have ho : s.m.owner = some f := by grind
      have hk : k.isRec = true := by grind
      have hm : m = { s.m with count := s.m.count - 1 } ∧ s.m.count - 1 ≠ 0 := by grind
      obtain ⟨rfl, hc⟩ := hm
      have hh : (abs k s).holder = some (f, s.m.count) := by simp [abs, absHolder, ho, hpy, depthOf, hk]
      have h1 : s.m.count ≠ 1 := by omega
      simp only [Spec.run, Spec.next, hh, ne_eq, not_true_eq_false, if_false, h1, if_true, Option.bind_some]
      congr 1
      apply abs_ext
      · simp [absHolder, ho, depthOf, hk]
      · rfl
    · rename_i m hcs
      have ho : s.m.owner = some f := by grind
      have hm : m.owner = none := by grind
      have hd : depthOf k s.m = 1 := by grind [depthOf]
      have hh : (abs k s).holder = some (f, 1) := by simp [abs, absHolder, ho, hpy, hd]
      have hn := liveList_notifyOne h.qi
      have hw : (notifyOne s.c s.q).2.2 = (abs k s).waiting.head? := hn.1
      simp only [Spec.run, Spec.next, hh, ne_eq, not_true_eq_false, if_false, if_true, hw, Option.bind_some]
      congr 1
      apply abs_ext
      · simp [absHolder, hm]
      · exact hn.2.symm

theorem refine_step {k : Kind} {s s' : State} {o : List Obs} {e : Event} (h : Inv k s)
    (hs : step k s e = some (s', o)) : (abs k s).run k o = some (abs k s') := by
  cases e with
  | call f op =>
    simp only [step] at hs
    split at hs <;> simp only [Option.some.injEq, Prod.mk.injEq, reduceCtorEq] at hs
    rename_i hg
    obtain ⟨rfl, rfl⟩ := hs
    simp only [Spec.run, Spec.next, Option.bind_some]
    rw [← threw_abs (by simp [hg.1]) (by cases op <;> simp [entry])]
  | run f => exact refine_run h hs
  | timer f =>
    simp only [step] at hs
    split at hs <;> try simp only [reduceCtorEq] at hs
    rename_i ep d hp
    split at hs <;> simp only [Option.some.injEq, Prod.mk.injEq, reduceCtorEq] at hs
    rename_i hd
    obtain ⟨rfl, rfl⟩ := hs
    have hreg : regOf (s.pc f) = some ⟨ep, some d⟩ := by simp [hp, regOf]
    by_cases hl : Live s.c ⟨f, ep⟩
    · have ht := liveList_timer h.qi hreg hl
      have hw : f ∈ (abs k s).waiting := (mem_liveList h.qi f).2 ⟨_, hreg, hl⟩
      have hok : (wake s.c ⟨f, ep⟩).2 = true := by rw [wake_live hl]
      simp only [hok, if_true, Spec.run, Spec.next, hw, Option.bind_some]
      congr 1
      apply abs_ext
      · rfl
      · exact ht.symm
    · rw [wake_dead hl]; rfl
  | tick n =>
    simp only [step, Option.some.injEq, Prod.mk.injEq] at hs
    obtain ⟨rfl, rfl⟩ := hs; rfl
  | elsewhere f n =>
    simp only [step] at hs
    split at hs <;> simp only [Option.some.injEq, Prod.mk.injEq, reduceCtorEq] at hs
    rename_i hg
    obtain ⟨rfl, rfl⟩ := hs
    simp only [Spec.run]; congr 1
    apply abs_ext
    · rfl
    · symm; apply liveList_congr
      intro w hw; have := h.qi.not_mem_of_none (f := f) (by simp [hg, regOf]) w hw
      simp [this]

theorem refine {k : Kind} {s : State} {tr : List Obs} (h : Reach (step k) init s tr) :
    Spec.init.run k tr = some (abs k s) := by
  refine Reach.inv (fun s tr => Spec.init.run k tr = some (abs k s)) ?_ ?_ h
  · rfl
  · intro s tr e s' o hr hp hs
    rw [Spec.run_append, hp]; exact refine_step (reach_inv hr) hs

/-! ## C01: mutual exclusion -/

/-- Completed acquisitions of fiber `f`. -/
def acquired (f : Fid) (tr : List Obs) : Nat :=
  tr.countP (fun o => match o with
    | .lockRet g => g == f
    | .tryRet g b => b && g == f
    | .untilRet g _ b _ => b && g == f
    | _ => false)

/-- Completed releases of fiber `f`. -/
def released (f : Fid) (tr : List Obs) : Nat :=
  tr.countP (fun o => match o with
    | .unlockRet g _ => g == f
    | _ => false)

def Spec.depth (sp : Spec) (f : Fid) : Nat :=
  match sp.holder with
  | some (g, n) => if g = f then n else 0
  | none => 0

def Spec.wf (k : Kind) (sp : Spec) : Prop :=
  ∀ g n, sp.holder = some (g, n) → 1 ≤ n ∧ (k.isRec = false → n = 1)

theorem grant_counts {k : Kind} {sp sp' : Spec} {g : Fid} (hw : sp.wf k) (h : sp.grant k g = some sp') :
    sp'.wf k ∧ (∀ f, (if g = f then 1 else 0) + sp.depth f = sp'.depth f) ∧
      ∃ n, sp'.holder = some (g, n) := by
  simp only [Spec.grant] at h
  split at h
  · cases h
  · split at h
    · rename_i h0
      simp only [Option.some.injEq] at h; subst h
      refine ⟨?_, ?_, 1, rfl⟩
      · intro a n ha; simp at ha; omega
      · intro f; simp only [Spec.depth, h0]; split <;> rfl
    · rename_i a n h0
      split at h <;> simp only [Option.some.injEq, reduceCtorEq] at h
      rename_i hg; subst h
      obtain ⟨rfl, hk⟩ := hg
      refine ⟨?_, ?_, n + 1, rfl⟩
      · intro b m hb; simp at hb; obtain ⟨_, rfl⟩ := hb; simp [hk]
      · intro f; simp only [Spec.depth, h0]; split <;> omega

theorem next_counts {k : Kind} {sp sp' : Spec} {o : Obs} (hw : sp.wf k) (h : sp.next k o = some sp') :
    sp'.wf k ∧ ∀ f, acquired f [o] + sp.depth f = released f [o] + sp'.depth f := by
  cases o with
  | called f op => simp [Spec.next] at h; subst h; exact ⟨hw, by simp [acquired, released]⟩
  | lockRet g =>
    obtain ⟨h1, h2, _⟩ := grant_counts hw h
    refine ⟨h1, fun f => ?_⟩
    have := h2 f; simp [acquired, released, List.countP_cons]; exact this
  | tryRet g b =>
    cases b with
    | false =>
      simp only [Spec.next] at h
      split at h <;> simp only [Option.some.injEq, reduceCtorEq] at h
      subst h; exact ⟨hw, by simp [acquired, released]⟩
    | true =>
      obtain ⟨h1, h2, _⟩ := grant_counts hw h
      refine ⟨h1, fun f => ?_⟩
      have := h2 f; simp [acquired, released, List.countP_cons]; exact this
  | untilRet g d b t =>
    cases b with
    | false =>
      simp only [Spec.next] at h
      split at h <;> simp only [Option.some.injEq, reduceCtorEq] at h
      subst h; exact ⟨hw, by simp [acquired, released]⟩
    | true =>
      obtain ⟨h1, h2, _⟩ := grant_counts hw h
      refine ⟨h1, fun f => ?_⟩
      have := h2 f; simp [acquired, released, List.countP_cons]; exact this
  | unlockRet g r =>
    simp only [Spec.next] at h
    split at h
    · cases h
    · rename_i a n h0
      have hn := hw a n h0
      split at h
      · cases h
      · rename_i hag
        simp only [ne_eq, Decidable.not_not] at hag; subst hag
        split at h
        · rename_i h1
          split at h <;> simp only [Option.some.injEq, reduceCtorEq] at h
          subst h
          refine ⟨by intro b m hb; simp at hb, fun f => ?_⟩
          simp [acquired, released, List.countP_cons, Spec.depth, h0, h1]
        · rename_i h1
          split at h <;> simp only [Option.some.injEq, reduceCtorEq] at h
          subst h
          refine ⟨?_, fun f => ?_⟩
          · intro b m hb; simp at hb; exact ⟨by omega, fun hk => by have := hn.2 hk; omega⟩
          · simp [acquired, released, List.countP_cons, Spec.depth, h0]; split <;> omega
  | threw f op e =>
    have : sp' = sp := by
      cases op <;> simp only [Spec.next] at h
      · split at h <;> simp_all
      · split at h <;> simp_all
      · cases h
      · split at h <;> simp_all
    subst this; exact ⟨hw, by simp [acquired, released]⟩
  | blocks f =>
    simp only [Spec.next] at h
    split at h <;> simp only [Option.some.injEq, reduceCtorEq] at h
    subst h; exact ⟨hw, by simp [acquired, released, Spec.depth]⟩
  | expired f =>
    simp only [Spec.next] at h
    split at h <;> simp only [Option.some.injEq, reduceCtorEq] at h
    subst h; exact ⟨hw, by simp [acquired, released, Spec.depth]⟩

theorem run_counts {k : Kind} (tr : List Obs) : ∀ {sp sp' : Spec}, sp.wf k → sp.run k tr = some sp' →
    sp'.wf k ∧ ∀ f, acquired f tr + sp.depth f = released f tr + sp'.depth f := by
  induction tr with
  | nil => intro sp sp' hw h; simp [Spec.run] at h; subst h; exact ⟨hw, by simp [acquired, released]⟩
  | cons o os ih =>
    intro sp sp' hw h
    simp only [Spec.run] at h
    cases hn : sp.next k o with
    | none => simp [hn] at h
    | some sp1 =>
      rw [hn, Option.bind_some] at h
      obtain ⟨h1, h2⟩ := next_counts hw hn
      obtain ⟨h3, h4⟩ := ih h1 h
      refine ⟨h3, fun f => ?_⟩
      have e1 : acquired f (o :: os) = acquired f [o] + acquired f os := by
        unfold acquired; rw [← List.countP_append]; rfl
      have e2 : released f (o :: os) = released f [o] + released f os := by
        unfold released; rw [← List.countP_append]; rfl
      have := h2 f; have := h4 f; omega

theorem reach_counts {k : Kind} {s : State} {tr : List Obs} (h : Reach (step k) init s tr) (f : Fid) :
    acquired f tr = released f tr + (abs k s).depth f ∧ (abs k s).wf k := by
  obtain ⟨h1, h2⟩ := run_counts tr (sp := Spec.init) (by intro g n hg; simp [Spec.init] at hg) (refine h)
  have := h2 f
  simp [Spec.init, Spec.depth] at this
  exact ⟨by simpa [Spec.depth] using this, h1⟩

/-- **C01.** For each of the four classes and every history: two different fibers never both hold the
mutex, i.e. have more completed acquisitions than completed releases. -/
theorem mutual_exclusion {k : Kind} {s : State} {tr : List Obs} (h : Reach (step k) init s tr) {f g : Fid}
    (hf : released f tr < acquired f tr) (hg : released g tr < acquired g tr) : f = g := by
  have h1 := (reach_counts h f).1
  have h2 := (reach_counts h g).1
  unfold Spec.depth at h1 h2
  split at h1 <;> split at h2 <;> grind

/-- **C01.** Nobody releases more often than they acquired; a non-recursive mutex is never held twice. -/
theorem hold_count {k : Kind} {s : State} {tr : List Obs} (h : Reach (step k) init s tr) (f : Fid) :
    released f tr ≤ acquired f tr ∧ (k.isRec = false → acquired f tr ≤ released f tr + 1) := by
  have ⟨h1, h2⟩ := reach_counts h f
  refine ⟨by omega, fun hk => ?_⟩
  unfold Spec.depth at h1
  split at h1
  · rename_i g n hh; have := (h2 g n hh).2 hk; split at h1 <;> omega
  · omega

/-- **C01.** A call that reports "acquired" returns with the caller as owner. -/
theorem acquired_owner {k : Kind} {s s' : State} {tr o : List Obs} {e : Event} {f : Fid}
    (h : Reach (step k) init s tr) (hs : step k s e = some (s', o)) (ha : 0 < acquired f o) :
    s'.m.owner = some f := by
  have hw := (reach_counts h f).2
  obtain ⟨_, h2⟩ := run_counts o hw (refine_step (reach_inv h) hs)
  have h2 := h2 f
  have hlen : o.length ≤ 1 := by
    cases e with
    | run g => simp only [step, run] at hs; grind
    | _ => simp only [step] at hs; grind
  have hrel : ∀ os : List Obs, os.length ≤ 1 → 0 < acquired f os → released f os = 0 := by
    intro os hl
    match os, hl with
    | [], _ => simp [acquired]
    | [x], _ => cases x <;> simp [acquired, released]
  rw [hrel o hlen ha] at h2
  have hd : 0 < (abs k s').depth f := by omega
  simp only [Spec.depth, abs, absHolder] at hd
  grind

/-! ## C02/C03: nobody is left behind on a free mutex -/

/-- Unanswered wake-ups: `unlock()` has scheduled the fiber to try again, and it has not yet done so
(acquired, gone back to sleep, or given up). -/
def noteStep (n : Fid → Bool) : Obs → Fid → Bool
  | .unlockRet _ (some g) => upd n g true
  | .blocks f => upd n f false
  | .lockRet f => upd n f false
  | .untilRet f _ _ _ => upd n f false
  | .threw f _ _ => upd n f false
  | _ => n

def notes (tr : List Obs) : Fid → Bool := tr.foldl noteStep (fun _ => false)

/-- No fiber that holds an unanswered wake-up from `unlock()` returns "timed out". -/
def NoSwallow (n : Fid → Bool) : List Obs → Prop
  | [] => True
  | o :: os => (∀ f d t, o = .untilRet f d false t → n f = false) ∧ NoSwallow (noteStep n o) os

theorem notes_append (tr o : List Obs) : notes (tr ++ o) = o.foldl noteStep (notes tr) := by
  simp [notes, List.foldl_append]

theorem noSwallow_append (n : Fid → Bool) (tr o : List Obs) :
    NoSwallow n (tr ++ o) ↔ NoSwallow n tr ∧ NoSwallow (tr.foldl noteStep n) o := by
  induction tr generalizing n with
  | nil => simp [NoSwallow]
  | cons x xs ih => simp only [List.cons_append, NoSwallow, ih, List.foldl_cons, and_assoc]

/-- A fiber with an unanswered wake-up is on its way to another attempt (or to giving up). -/
def OnItsWay (s : State) (g : Fid) : Prop :=
  s.pc g = .lockEntry ∨ (∃ ep, s.pc g = .lockWait ep ∧ s.c.ready g = true) ∨
  (∃ d, s.pc g = .untilEntry d) ∨ (∃ d, s.pc g = .untilCS d) ∨
  (∃ ep d, s.pc g = .untilWait ep d ∧ s.c.ready g = true) ∨ (∃ ep d, s.pc g = .untilUnlink ep d)

structure WInv (s : State) (tr : List Obs) : Prop where
  way : ∀ g, notes tr g = true → OnItsWay s g
  served : NoSwallow (fun _ => false) tr → s.m.owner = none → liveList s.c s.q ≠ [] →
    ∃ g, notes tr g = true

theorem onItsWay_frame {s s' : State} {g : Fid} (h : OnItsWay s g) (hp : s'.pc g = s.pc g)
    (hr : s.c.ready g = true → s'.c.ready g = true) : OnItsWay s' g := by
  unfold OnItsWay at *
  rw [hp]
  rcases h with h | ⟨ep, h, h2⟩ | h | h | ⟨ep, d, h, h2⟩ | h
  · exact Or.inl h
  · exact Or.inr (Or.inl ⟨ep, h, hr h2⟩)
  · exact Or.inr (Or.inr (Or.inl h))
  · exact Or.inr (Or.inr (Or.inr (Or.inl h)))
  · exact Or.inr (Or.inr (Or.inr (Or.inr (Or.inl ⟨ep, d, h, hr h2⟩))))
  · exact Or.inr (Or.inr (Or.inr (Or.inr (Or.inr h))))

theorem winv_run {k : Kind} {s s' : State} {tr o : List Obs} {f : Fid} (hi : Inv k s) (h : WInv s tr)
    (hs : run k s f = some (s', o)) : WInv s' (tr ++ o) := by
  obtain ⟨h1, h2⟩ := h
  have tk := hi.tk f
  have other : ∀ (p : Pc) (m : M) (c : Ctxs) (q : List Waker), (∀ g, g ≠ f → s.c.ready g = true → c.ready g = true) →
      ∀ g, g ≠ f → notes tr g = true →
      OnItsWay { s with m := m, c := c, q := q, pc := upd s.pc f p } g := by
    intro p m c q hc g hg hn
    exact onItsWay_frame (h1 g hn) (by simp [hg]) (hc g hg)
  have hcr : ∀ g, g ≠ f → s.c.ready g = true → (consumeReady s.c f).ready g = true := by
    intro g hg hr; simp [consumeReady, hg, hr]
  have h1f := h1 f
  simp only [run] at hs
  split at hs
  · cases hs
  · rename_i hp
    rw [lockCS_eq] at hs
    split at hs <;> simp only [Option.some.injEq, Prod.mk.injEq] at hs <;> obtain ⟨rfl, rfl⟩ := hs
    · rename_i e hcs
      constructor
      · intro g hg
        simp only [notes_append, List.foldl, noteStep] at hg
        by_cases hgf : g = f
        · simp [hgf] at hg
        · simp [hgf] at hg; exact other _ _ _ _ (by simp) g hgf hg
      · intro _ ho _; simp only at ho; grind
    · rename_i m hcs
      constructor
      · intro g hg
        simp only [notes_append, List.foldl, noteStep] at hg
        by_cases hgf : g = f
        · simp [hgf] at hg
        · simp [hgf] at hg; exact other _ _ _ _ (by simp) g hgf hg
      · intro _ ho _; simp only at ho; grind
    · rename_i hcs
      constructor
      · intro g hg
        simp only [notes_append, List.foldl, noteStep] at hg
        by_cases hgf : g = f
        · simp [hgf] at hg
        · simp [hgf] at hg; exact other _ _ _ _ (by intro g _; exact id) g hgf hg
      · intro _ ho _; simp only at ho; grind
  · rename_i ep hp
    split at hs <;> simp only [Option.some.injEq, Prod.mk.injEq, reduceCtorEq] at hs
    obtain ⟨rfl, rfl⟩ := hs
    rw [List.append_nil]
    constructor
    · intro g hg
      by_cases hgf : g = f
      · left; simp [hgf]
      · exact other _ _ _ _ hcr g hgf hg
    · exact h2
  · rename_i hp
    have hnf : notes tr f = false := by
      cases hn : notes tr f
      · rfl
      · have := h1 f hn; simp [OnItsWay, hp] at this
    rw [tryCS_eq] at hs
    split at hs <;> simp only [Option.some.injEq, Prod.mk.injEq] at hs <;> obtain ⟨rfl, rfl⟩ := hs
    · rename_i e hcs
      constructor
      · intro g hg
        simp only [notes_append, List.foldl, noteStep] at hg
        by_cases hgf : g = f
        · simp [hgf] at hg
        · simp [hgf] at hg; exact other _ _ _ _ (by simp) g hgf hg
      · intro _ ho _; simp only at ho; grind
    · rename_i m hcs
      rw [List.append_nil]
      constructor
      · intro g hg
        by_cases hgf : g = f
        · subst hgf; simp [hnf] at hg
        · exact other _ _ _ _ (by simp) g hgf hg
      · intro _ ho _; simp only at ho; grind
  · rename_i hp
    simp only [Option.some.injEq, Prod.mk.injEq] at hs; obtain ⟨rfl, rfl⟩ := hs
    have hnf : notes tr f = false := by
      cases hn : notes tr f
      · rfl
      · have := h1 f hn; simp [OnItsWay, hp] at this
    constructor
    · intro g hg
      simp only [notes_append, List.foldl, noteStep] at hg
      by_cases hgf : g = f
      · subst hgf; simp [hnf] at hg
      · exact other _ _ _ _ (by simp) g hgf hg
    · intro hns ho hl
      simp only [notes_append, List.foldl, noteStep]
      exact h2 ((noSwallow_append _ _ _).1 hns).1 ho hl
  · rename_i d hp
    split at hs <;> simp only [Option.some.injEq, Prod.mk.injEq] at hs <;> obtain ⟨rfl, rfl⟩ := hs
    · constructor
      · intro g hg
        simp only [notes_append, List.foldl, noteStep] at hg
        by_cases hgf : g = f
        · simp [hgf] at hg
        · simp [hgf] at hg; exact other _ _ _ _ (by simp) g hgf hg
      · intro hns ho hl
        have hns := (noSwallow_append _ _ _).1 hns
        obtain ⟨g, hg⟩ := h2 hns.1 ho hl
        refine ⟨g, ?_⟩
        simp only [notes_append, List.foldl, noteStep]
        have : notes tr f = false := hns.2.1 f d s.now rfl
        have hgf : g ≠ f := by rintro rfl; simp [this] at hg
        simp [hgf, hg]
    · rw [List.append_nil]
      constructor
      · intro g hg
        by_cases hgf : g = f
        · right; right; right; left; exact ⟨d, by simp [hgf]⟩
        · exact other _ _ _ _ (by simp) g hgf hg
      · exact h2
  · rename_i d hp
    have hkt := tk (by simp [hp, isUntil])
    rw [untilCS_eq _ _ _ hkt] at hs
    split at hs <;> simp only [Option.some.injEq, Prod.mk.injEq] at hs <;> obtain ⟨rfl, rfl⟩ := hs
    · rename_i hcs; grind
    · rename_i m hcs
      constructor
      · intro g hg
        simp only [notes_append, List.foldl, noteStep] at hg
        by_cases hgf : g = f
        · simp [hgf] at hg
        · simp [hgf] at hg; exact other _ _ _ _ (by simp) g hgf hg
      · intro _ ho _; simp only at ho; grind
    · rename_i hcs
      constructor
      · intro g hg
        simp only [notes_append, List.foldl, noteStep] at hg
        by_cases hgf : g = f
        · simp [hgf] at hg
        · simp [hgf] at hg; exact other _ _ _ _ (by intro g _; exact id) g hgf hg
      · intro _ ho _; simp only at ho; grind
  · rename_i ep d hp
    split at hs <;> try simp only [reduceCtorEq] at hs
    split at hs <;> simp only [Option.some.injEq, Prod.mk.injEq] at hs <;> obtain ⟨rfl, rfl⟩ := hs
    · rw [List.append_nil]
      constructor
      · intro g hg
        by_cases hgf : g = f
        · right; right; left; exact ⟨d, by simp [hgf]⟩
        · exact other _ _ _ _ hcr g hgf hg
      · exact h2
    · rw [List.append_nil]
      constructor
      · intro g hg
        by_cases hgf : g = f
        · right; right; right; right; right; exact ⟨ep, d, by simp [hgf]⟩
        · exact other _ _ _ _ hcr g hgf hg
      · exact h2
  · rename_i ep d hp
    simp only [Option.some.injEq, Prod.mk.injEq] at hs; obtain ⟨rfl, rfl⟩ := hs
    have hu := hi.unl f ep d hp
    constructor
    · intro g hg
      simp only [notes_append, List.foldl, noteStep] at hg
      by_cases hgf : g = f
      · simp [hgf] at hg
      · simp [hgf] at hg; exact other _ _ _ _ (by simp) g hgf hg
    · intro hns ho hl
      simp only at hl
      rw [liveList_unlink (by omega)] at hl
      have hns := (noSwallow_append _ _ _).1 hns
      obtain ⟨g, hg⟩ := h2 hns.1 ho hl
      refine ⟨g, ?_⟩
      simp only [notes_append, List.foldl, noteStep]
      have : notes tr f = false := hns.2.1 f d s.now rfl
      have hgf : g ≠ f := by rintro rfl; simp [this] at hg
      simp [hgf, hg]
  · rename_i hp
    have hnf : notes tr f = false := by
      cases hn : notes tr f
      · rfl
      · have := h1 f hn; simp [OnItsWay, hp] at this
    rw [unlockCS_eq] at hs
    split at hs <;> simp only [Option.some.injEq, Prod.mk.injEq] at hs <;> obtain ⟨rfl, rfl⟩ := hs
    · rename_i e hcs
      constructor
      · intro g hg
        simp only [notes_append, List.foldl, noteStep] at hg
        by_cases hgf : g = f
        · simp [hgf] at hg
        · simp [hgf] at hg; exact other _ _ _ _ (by simp) g hgf hg
      · intro hns ho hl
        obtain ⟨g, hg⟩ := h2 ((noSwallow_append _ _ _).1 hns).1 ho hl
        refine ⟨g, ?_⟩
        have hgf : g ≠ f := by rintro rfl; simp [hnf] at hg
        simp [notes_append, noteStep, hgf, hg]
    · rename_i m hcs
      constructor
      · intro g hg
        simp only [notes_append, List.foldl, noteStep] at hg
        by_cases hgf : g = f
        · subst hgf; simp [hnf] at hg
        · exact other _ _ _ _ (by simp) g hgf hg
      · intro _ ho _; simp only at ho; grind
    · rename_i m hcs
      have hmono : ∀ g, g ≠ f → s.c.ready g = true → (notifyOne s.c s.q).1.ready g = true :=
        fun g _ hr => notifyOne_ready_mono hr
      rcases notifyOne_cases s.c s.q with ⟨ha, hb⟩ | ⟨pre, w, post, ha, hb, hc, hd⟩
      · constructor
        · intro g hg
          simp only [notes_append, List.foldl, hb, noteStep] at hg
          by_cases hgf : g = f
          · subst hgf; simp [hnf] at hg
          · exact other _ _ _ _ hmono g hgf hg
        · intro _ _ hl; simp [hb, liveList] at hl
      · have hwr : (notifyOne s.c s.q).1.ready w.ctx = true := by
          rw [hd]; exact (wake_ready _ _ _).2 (Or.inr ⟨rfl, hc⟩)
        have hwq : w ∈ s.q := by simp [ha]
        obtain ⟨dl, hreg⟩ := hi.qi.mem w hwq
        have hwf : w.ctx ≠ f := by rintro he; rw [he, hp] at hreg; simp [regOf] at hreg
        constructor
        · intro g hg
          simp only [notes_append, List.foldl, hd, noteStep] at hg
          by_cases hgw : g = w.ctx
          · subst hgw
            unfold OnItsWay
            simp only [upd_other _ _ hwf]
            cases hpw : s.pc w.ctx with
            | lockWait ep => right; left; exact ⟨ep, rfl, hwr⟩
            | untilWait ep d => right; right; right; right; left; exact ⟨ep, d, rfl, hwr⟩
            | untilUnlink ep d =>
              right; right; right; right; right; exact ⟨ep, d, rfl⟩
            | _ => rw [hpw] at hreg; simp [regOf] at hreg
          · simp [hgw] at hg
            by_cases hgf : g = f
            · subst hgf; simp [hnf] at hg
            · exact other _ _ _ _ hmono g hgf hg
        · intro _ _ _
          exact ⟨w.ctx, by simp [notes_append, noteStep, hd]⟩

theorem winv_step {k : Kind} {s s' : State} {tr o : List Obs} {e : Event} (hi : Inv k s) (h : WInv s tr)
    (hs : step k s e = some (s', o)) : WInv s' (tr ++ o) := by
  cases e with
  | call f op =>
    simp only [step] at hs
    split at hs <;> simp only [Option.some.injEq, Prod.mk.injEq, reduceCtorEq] at hs
    rename_i hg
    obtain ⟨rfl, rfl⟩ := hs
    obtain ⟨h1, h2⟩ := h
    constructor
    · intro g hn
      simp only [notes_append, List.foldl, noteStep] at hn
      have hgf : g ≠ f := by
        rintro rfl; have := h1 g hn; simp [OnItsWay, hg.1] at this
      exact onItsWay_frame (h1 g hn) (by simp [hgf]) id
    · intro hns ho hl
      simp only [notes_append, List.foldl, noteStep]
      exact h2 ((noSwallow_append _ _ _).1 hns).1 ho hl
  | run f => exact winv_run hi h hs
  | timer f =>
    simp only [step] at hs
    split at hs <;> try simp only [reduceCtorEq] at hs
    rename_i ep d hp
    split at hs <;> simp only [Option.some.injEq, Prod.mk.injEq, reduceCtorEq] at hs
    obtain ⟨rfl, rfl⟩ := hs
    obtain ⟨h1, h2⟩ := h
    have hreg : regOf (s.pc f) = some ⟨ep, some d⟩ := by simp [hp, regOf]
    have hno : notes (tr ++ if (wake s.c ⟨f, ep⟩).2 = true then [Obs.expired f] else []) = notes tr := by
      split <;> simp [notes_append, noteStep]
    constructor
    · intro g hn
      rw [hno] at hn
      exact onItsWay_frame (h1 g hn) rfl (fun hr => (wake_ready _ _ _).2 (Or.inl hr))
    · intro hns ho hl
      rw [hno]
      refine h2 ((noSwallow_append _ _ _).1 hns).1 ho ?_
      intro hnil
      apply hl
      by_cases hlv : Live s.c ⟨f, ep⟩
      · simp only; rw [liveList_timer hi.qi hreg hlv, hnil]; rfl
      · simp only; rw [wake_dead hlv]; exact hnil
  | tick n =>
    simp only [step, Option.some.injEq, Prod.mk.injEq] at hs
    obtain ⟨rfl, rfl⟩ := hs
    rw [List.append_nil]
    exact ⟨fun g hn => onItsWay_frame (h.way g hn) rfl id, h.served⟩
  | elsewhere f n =>
    simp only [step] at hs
    split at hs <;> simp only [Option.some.injEq, Prod.mk.injEq, reduceCtorEq] at hs
    rename_i hg
    obtain ⟨rfl, rfl⟩ := hs
    rw [List.append_nil]
    refine ⟨fun g hn => onItsWay_frame (h.way g hn) rfl id, ?_⟩
    intro hns ho hl
    refine h.served hns ho ?_
    rwa [liveList_congr (c := s.c)] at hl
    intro w hw; have := hi.qi.not_mem_of_none (f := f) (by simp [hg, regOf]) w hw
    simp [this]

theorem reach_winv {k : Kind} {s : State} {tr : List Obs} (h : Reach (step k) init s tr) : WInv s tr := by
  refine Reach.inv WInv ?_ (fun _ _ _ _ _ hr hp hs => winv_step (reach_inv hr) hp hs) h
  constructor
  · intro g hg; simp [notes] at hg
  · intro _ _ hl; simp [init, liveList] at hl

/-- Fibers suspended on the mutex. -/
def Suspended (s : State) (f : Fid) : Prop :=
  (∃ ep, s.pc f = .lockWait ep) ∨ (∃ ep d, s.pc f = .untilWait ep d)

theorem suspended_live {k : Kind} {s : State} (hi : Inv k s) {f : Fid} (hs : Suspended s f)
    (hn : step k s (.run f) = none) : liveList s.c s.q ≠ [] := by
  have hr : s.c.ready f = false := by
    rcases hs with ⟨ep, hp⟩ | ⟨ep, d, hp⟩ <;> simp only [step, run, hp] at hn <;> grind
  have : f ∈ liveList s.c s.q := by
    rw [mem_liveList hi.qi]
    rcases hs with ⟨ep, hp⟩ | ⟨ep, d, hp⟩
    · refine ⟨⟨ep, none⟩, by simp [hp, regOf], ?_⟩
      rcases hi.qi.bound f ⟨ep, none⟩ (by simp [hp, regOf]) with h | h
      · exact h
      · have := hi.lw f ep hp h; simp_all
    · refine ⟨⟨ep, some d⟩, by simp [hp, regOf], ?_⟩
      rcases hi.qi.bound f ⟨ep, some d⟩ (by simp [hp, regOf]) with h | h
      · exact h
      · have := hi.uw f ep d hp h; simp_all
  exact List.ne_nil_of_mem this

theorem onItsWay_enabled {k : Kind} {s : State} {g : Fid} (h : OnItsWay s g) : step k s (.run g) ≠ none := by
  unfold OnItsWay at h
  simp only [step, run]
  rcases h with h | ⟨ep, h, h2⟩ | ⟨d, h⟩ | ⟨d, h⟩ | ⟨ep, d, h, h2⟩ | ⟨ep, d, h⟩ <;> simp only [h] <;> grind

theorem noSwallow_untimed {k : Kind} (hk : k.hasTimed = false) {s : State} {tr : List Obs}
    (h : Reach (step k) init s tr) : NoSwallow (fun _ => false) tr := by
  refine Reach.inv (fun _ tr => NoSwallow (fun _ => false) tr) trivial ?_ h
  intro s tr e s' o hr hp hs
  rw [noSwallow_append]
  refine ⟨hp, ?_⟩
  have tk := (reach_inv hr).tk
  have : ∀ f d t, Obs.untilRet f d false t ∉ o := by
    intro f d t hm
    cases e with
    | run g =>
      have tk := tk g
      simp only [step, run] at hs
      grind [isUntil]
    | _ => simp only [step] at hs; grind
  clear hp hs
  generalize tr.foldl noteStep (fun _ => false) = n
  induction o generalizing n with
  | nil => trivial
  | cons x xs ih =>
    refine ⟨?_, ih (fun f d t hm => this f d t (by simp [hm])) _⟩
    intro f d t hx; exact absurd (by simp [hx]) (this f d t)

/-- **C02.** `mutex` and `recursive_mutex`: whenever nobody owns the mutex while some fiber is suspended in
`lock()` and not yet scheduled, some other fiber has already been scheduled to take it: running just that
fiber makes its `lock()` return. -/
theorem free_mutex_is_taken {k : Kind} (hk : k.hasTimed = false) {s : State} {tr : List Obs} {f : Fid}
    (h : Reach (step k) init s tr) (hfree : s.m.owner = none) (hs : Suspended s f)
    (hn : step k s (.run f) = none) :
    ∃ g es s' o, (∀ e ∈ es, e = Event.run g) ∧ exec (step k) s es = some (s', o) ∧ Obs.lockRet g ∈ o ∧
      s'.m.owner = some g := by
  have hi := reach_inv h
  have hw := reach_winv h
  obtain ⟨g, hg⟩ := hw.served (noSwallow_untimed hk h) hfree (suspended_live hi hs hn)
  have tk := hi.tk g
  have hway := hw.way g hg
  have hcs : ∀ m : M, m.owner = none → ∃ m', lockCS k m g = .acquired m' ∧ m'.owner = some g := by
    intro m hm; rw [lockCS_eq]; simp only [hm]; cases k <;> simp [Kind.isRec]
  unfold OnItsWay at hway
  rcases hway with hp | ⟨ep, hp, hr⟩ | ⟨d, hp⟩ | ⟨d, hp⟩ | ⟨ep, d, hp, _⟩ | ⟨ep, d, hp⟩
  · obtain ⟨m', hm, hm'⟩ := hcs s.m hfree
    exact ⟨g, [.run g], { s with m := m', pc := upd s.pc g .idle }, [.lockRet g], by simp,
      by simp [exec, step, run, hp, hm], by simp, hm'⟩
  · obtain ⟨m', hm, hm'⟩ := hcs s.m hfree
    exact ⟨g, [.run g, .run g], { s with m := m', c := consumeReady s.c g, pc := upd (upd s.pc g .lockEntry) g .idle },
      [.lockRet g], by simp, by simp [exec, step, run, hp, hr, hm], by simp, hm'⟩
  all_goals
    have := tk (by simp [hp, isUntil])
    rw [hk] at this; cases this

/-- **C02/C03 (what holds).** All four classes: as long as no fiber that `unlock()` scheduled gives up with
"timed out", a free mutex with a suspended, not yet scheduled fiber implies that some fiber scheduled by
`unlock()` is still to make its attempt; in particular, if no fiber inside a call can run, no fiber is
suspended on a free mutex.

Missing for C03: executions in which a scheduled timed attempt does give up; there the property is false
(`timed_giveup_strands`). -/
theorem timed_free_mutex_is_taken_partial {k : Kind} {s : State} {tr : List Obs} {f : Fid}
    (h : Reach (step k) init s tr) (hns : NoSwallow (fun _ => false) tr)
    (hfree : s.m.owner = none) (hs : Suspended s f) (hn : step k s (.run f) = none) :
    ∃ g, notes tr g = true ∧ step k s (.run g) ≠ none := by
  have hw := reach_winv h
  obtain ⟨g, hg⟩ := hw.served hns hfree (suspended_live (reach_inv h) hs hn)
  exact ⟨g, hg, onItsWay_enabled (hw.way g hg)⟩

/-- The schedule that refutes C03. Fiber 1 owns the mutex, 2 waits in `try_lock_until(5)`, 3 in `lock()`;
1 unlocks, which schedules 2; before 2 runs its deadline passes, so it returns "timed out". -/
def strandRun : List Event :=
  [.call 1 .lock, .run 1, .call 2 (.tryLockUntil 5), .run 2, .run 2, .call 3 .lock, .run 3,
   .call 1 .unlock, .run 1, .tick 5, .run 2, .run 2]

/-- **C03 is false of the code.** For both timed classes there is an execution after which a timed attempt has
returned "timed out", nobody owns the mutex, a fiber is suspended in `lock()`, and nothing at all can run
any more: no fiber inside a call can take a step and no timer is pending. -/
theorem timed_giveup_strands (k : Kind) (hk : k.hasTimed = true) :
    ∃ s tr, Reach (step k) init s tr ∧ Obs.untilRet 2 5 false 5 ∈ tr ∧ s.m.owner = none ∧ Suspended s 3 ∧
      ∀ g, step k s (.run g) = none ∧ step k s (.timer g) = none := by
  cases k <;> simp only [Kind.hasTimed, Bool.false_eq_true] at hk
  all_goals
    refine ⟨_, _, reach_of_exec (es := strandRun) rfl, by decide, rfl, Or.inl ⟨1, rfl⟩, ?_⟩
    intro g
    by_cases h3 : g = 3
    · subst h3; exact ⟨rfl, rfl⟩
    · by_cases h2 : g = 2
      · subst h2; exact ⟨rfl, rfl⟩
      · by_cases h1 : g = 1
        · subst h1; exact ⟨rfl, rfl⟩
        · simp [step, run, upd_apply, h1, h2, h3, init]

/-- Non-vacuity of `free_mutex_is_taken`: 1 owns, 2 and 3 wait, 1 unlocks: the mutex is free, 3 is suspended,
2 has been scheduled. -/
example : ∃ s tr, Reach (step .plain) init s tr ∧ s.m.owner = none ∧ Suspended s 3 ∧
    step .plain s (.run 3) = none :=
  ⟨_, _, reach_of_exec (es := [.call 1 .lock, .run 1, .call 2 .lock, .run 2, .call 3 .lock, .run 3,
    .call 1 .unlock, .run 1]) rfl, rfl, Or.inl ⟨1, rfl⟩, rfl⟩

/-- Non-vacuity of the partial theorem: a run with a timed waiter released by an unlock, in time. -/
example : ∃ s tr, Reach (step .timed) init s tr ∧ NoSwallow (fun _ => false) tr ∧ s.m.owner = none ∧
    Suspended s 3 ∧ step .timed s (.run 3) = none := by
  refine ⟨_, _, reach_of_exec (es := [.call 1 .lock, .run 1, .call 2 (.tryLockUntil 5), .run 2, .run 2,
    .call 3 .lock, .run 3, .call 1 .unlock, .run 1]) rfl, ?_, rfl, Or.inl ⟨1, rfl⟩, rfl⟩
  simp [NoSwallow]

/-! ## C04: misuse -/

theorem holds_iff_owner {k : Kind} {s : State} {tr : List Obs} (h : Reach (step k) init s tr) {f : Fid}
    (hp : s.pc f ≠ .tryYield) : released f tr < acquired f tr ↔ s.m.owner = some f := by
  have ⟨h1, h2⟩ := reach_counts h f
  rw [← holds_abs (k := k) hp, h1]
  unfold Spec.depth Spec.holds
  cases hh : (abs k s).holder with
  | none => simp
  | some gn =>
    obtain ⟨g, n⟩ := gn
    have := (h2 g n hh).1
    simp only [beq_iff_eq]; split <;> simp_all; omega

/-- **C04.** Locking a non-recursive mutex one already holds throws `resource_deadlock_would_occur`. -/
theorem relock_throws {k : Kind} {s : State} {tr : List Obs} {f : Fid} (h : Reach (step k) init s tr)
    (hk : k.isRec = false) (hh : released f tr < acquired f tr) :
    (s.pc f = .lockEntry → ∃ s', step k s (.run f) = some (s', [.threw f .lock .deadlock])) ∧
    (s.pc f = .tryEntry → ∃ s', step k s (.run f) = some (s', [.threw f .tryLock .deadlock])) := by
  constructor
  · intro hp
    have ho := (holds_iff_owner h (by simp [hp])).1 hh
    simp [step, run, hp, lockCS_eq, ho, hk]
  · intro hp
    have ho := (holds_iff_owner h (by simp [hp])).1 hh
    simp [step, run, hp, tryCS_eq, ho, hk]

/-- **C04.** Unlocking a mutex one does not hold throws `operation_not_permitted`. -/
theorem unlock_not_held_throws {k : Kind} {s : State} {tr : List Obs} {f : Fid} (h : Reach (step k) init s tr)
    (hh : ¬ released f tr < acquired f tr) (hp : s.pc f = .unlockEntry) :
    ∃ s', step k s (.run f) = some (s', [.threw f .unlock .notPermitted]) := by
  rw [holds_iff_owner h (by simp [hp])] at hh
  simp [step, run, hp, unlockCS_eq, hh]

/-- **C04.** A call that throws changes nothing but the caller's own progress: owner, recursion depth, wait
queue and every other fiber are as before. And it throws in these cases only: the error is `deadlock` by a
holder of a non-recursive mutex in `lock`/`try_lock`, or `notPermitted` by a non-holder in `unlock`. -/
theorem misuse_changes_nothing {k : Kind} {s s' : State} {tr o : List Obs} {e : Event} {f : Fid} {op : Op}
    {err : Err} (h : Reach (step k) init s tr) (hs : step k s e = some (s', o)) (hm : Obs.threw f op err ∈ o) :
    (s'.m = s.m ∧ s'.q = s.q ∧ s'.c = s.c ∧ s'.now = s.now ∧ s'.pc = upd s.pc f .idle) ∧
    ((err = .deadlock ∧ (op = .lock ∨ op = .tryLock) ∧ k.isRec = false ∧ released f tr < acquired f tr) ∨
     (err = .notPermitted ∧ op = .unlock ∧ ¬ released f tr < acquired f tr)) := by
  have tk := (reach_inv h).tk
  cases e with
  | run g =>
    have hio := fun hp : s.pc g ≠ .tryYield => holds_iff_owner h hp
    have tk := tk g
    simp only [step, run] at hs
    split at hs
    · cases hs
    · rename_i hp
      have hio := hio (by simp [hp])
      rw [lockCS_eq] at hs
      by_cases ho : s.m.owner = some g <;> by_cases hk : k.isRec = true <;> by_cases hn : s.m.owner = none <;>
        simp [ho, hk, hn] at hs <;> grind
    · grind
    · rename_i hp
      have hio := hio (by simp [hp])
      rw [tryCS_eq] at hs
      by_cases ho : s.m.owner = some g <;> by_cases hk : k.isRec = true <;> by_cases hn : s.m.owner = none <;>
        simp [ho, hk, hn] at hs <;> grind
    · grind
    · grind
    · rename_i d hp
      rw [untilCS_eq _ _ _ (tk (by simp [hp, isUntil]))] at hs
      grind
    · grind
    · grind
    · rename_i hp
      have hio := hio (by simp [hp])
      rw [unlockCS_eq] at hs
      grind
  | _ => simp only [step] at hs; grind

/-! ## C05: recursion depth -/

/-- **C05.** While a fiber is not inside `try_lock`, it owns a recursive mutex exactly if it acquired it more
often than it released it, and the stored depth is the difference (so `unlock` never decrements zero). -/
theorem recursive_depth {k : Kind} {s : State} {tr : List Obs} {f : Fid} (h : Reach (step k) init s tr)
    (hk : k.isRec = true) (hp : s.pc f ≠ .tryYield) :
    acquired f tr = released f tr + (if s.m.owner = some f then s.m.count else 0) ∧
    (s.m.owner = some f → 0 < s.m.count) := by
  have ⟨h1, _⟩ := reach_counts h f
  refine ⟨?_, fun ho => (reach_inv h).cnt hk (by simp [ho])⟩
  rw [h1]
  congr 1
  unfold Spec.depth abs absHolder depthOf
  simp only [hk]
  cases ho : s.m.owner with
  | none => simp
  | some g =>
    simp only
    by_cases hg : g = f
    · subst hg; simp [hp]
    · grind

/-- **C05.** Another fiber acquires only when the holder's acquisitions and releases balance. -/
theorem acquire_needs_balance {k : Kind} {s s' : State} {tr o : List Obs} {e : Event} {f g : Fid}
    (h : Reach (step k) init s tr) (hs : step k s e = some (s', o)) (hg : acquired g o > 0) (hne : f ≠ g) :
    acquired f tr = released f tr := by
  have h' := Reach.tail e h hs
  have ho := acquired_owner h hs hg
  have h1 := (reach_counts h' f).1
  have h2 : acquired f (tr ++ o) = acquired f tr + acquired f o := by unfold acquired; rw [List.countP_append]
  have h3 : released f (tr ++ o) = released f tr + released f o := by unfold released; rw [List.countP_append]
  have hd : (abs k s').depth f = 0 := by
    unfold Spec.depth abs absHolder; rw [ho]; simp only; grind
  have hlen : o.length ≤ 1 := by
    cases e with
    | run g => simp only [step, run] at hs; grind
    | _ => simp only [step] at hs; grind
  have hrel : released f o = 0 := by
    match o, hlen with
    | [], _ => rfl
    | [x], _ => cases x <;> simp [acquired, released] at hg ⊢
  have hle := (hold_count h f).1
  omega

/-- **C05.** A holder of a recursive mutex re-locks without blocking, in all three ways. -/
theorem recursive_relock {k : Kind} {s : State} {tr : List Obs} {f : Fid} (h : Reach (step k) init s tr)
    (hk : k.isRec = true) (hh : released f tr < acquired f tr) :
    (s.pc f = .lockEntry → ∃ s', step k s (.run f) = some (s', [.lockRet f])) ∧
    (s.pc f = .tryEntry → ∃ s', exec (step k) s [.run f, .run f] = some (s', [.tryRet f true])) ∧
    (∀ d, s.pc f = .untilEntry d → s.now ≤ d →
      ∃ s', exec (step k) s [.run f, .run f] = some (s', [.untilRet f d true s.now])) := by
  refine ⟨?_, ?_, ?_⟩
  · intro hp
    have ho := (holds_iff_owner h (by simp [hp])).1 hh
    simp [step, run, hp, lockCS_eq, ho, hk]
  · intro hp
    have ho := (holds_iff_owner h (by simp [hp])).1 hh
    simp [exec, step, run, hp, tryCS_eq, ho, hk]
  · intro d hp hd
    have ho := (holds_iff_owner h (by simp [hp])).1 hh
    have hkt := (reach_inv h).tk f (by simp [hp, isUntil])
    have : ¬ d < s.now := by omega
    simp [exec, step, run, hp, untilCS_eq _ _ _ hkt, ho, hk, this]

/-- Non-vacuity: depth three reached by three different calls, then released by three unlocks, after which
another fiber gets in. -/
example : ∃ s, Reach (step .recTimed) init s
    [.called 1 .lock, .lockRet 1, .called 1 .tryLock, .tryRet 1 true, .called 1 (.tryLockUntil 9),
     .untilRet 1 9 true 0, .called 2 .lock, .blocks 2, .called 1 .unlock, .unlockRet 1 none,
     .called 1 .unlock, .unlockRet 1 none, .called 1 .unlock, .unlockRet 1 (some 2), .lockRet 2] := by
  refine ⟨_, reach_of_exec (es := [.call 1 .lock, .run 1, .call 1 .tryLock, .run 1, .run 1,
    .call 1 (.tryLockUntil 9), .run 1, .run 1, .call 2 .lock, .run 2, .call 1 .unlock, .run 1,
    .call 1 .unlock, .run 1, .call 1 .unlock, .run 1, .run 2, .run 2]) rfl⟩

/-! ## C06: timed attempts tell the truth -/

/-- **C06.** `try_lock_until(d)` returns false only when `d` has been reached; it then has changed neither
owner nor depth, and the caller is no longer registered as a waiter. -/
theorem timed_false_truthful {k : Kind} {s s' : State} {tr o : List Obs} {e : Event} {f : Fid} {d t : Nat}
    (h : Reach (step k) init s tr) (hs : step k s e = some (s', o)) (hm : Obs.untilRet f d false t ∈ o) :
    d ≤ t ∧ t = s.now ∧ s'.m = s.m ∧ s'.pc f = .idle ∧ ∀ w ∈ s'.q, w.ctx ≠ f := by
  have hi' := reach_inv (Reach.tail e h hs)
  have hi := reach_inv h
  have key : d ≤ t ∧ t = s.now ∧ s'.m = s.m ∧ s'.pc f = .idle := by
    have unl := hi.unl
    cases e with
    | run g =>
      simp only [step, run] at hs
      repeat' split at hs
      all_goals simp only [reduceCtorEq, Option.some.injEq, Prod.mk.injEq] at hs
      all_goals obtain ⟨rfl, rfl⟩ := hs
      all_goals simp only [List.mem_singleton, List.not_mem_nil, reduceCtorEq, Obs.untilRet.injEq,
        Bool.false_eq_true, and_false, false_and] at hm
      all_goals obtain ⟨rfl, rfl, -, rfl⟩ := hm
      all_goals refine ⟨?_, rfl, rfl, upd_same _ _ _⟩
      all_goals grind
    | _ => simp only [step] at hs; grind
  exact ⟨key.1, key.2.1, key.2.2.1, key.2.2.2, hi'.qi.not_mem_of_none (by simp [key.2.2.2, regOf])⟩

/-- **C06.** `try_lock_until` returns true only with ownership acquired by that very call: before, nobody owned
the mutex (or, recursive classes, the caller did), now the caller owns it, one level deeper. -/
theorem timed_true_truthful {k : Kind} {s s' : State} {tr o : List Obs} {e : Event} {f : Fid} {d t : Nat}
    (h : Reach (step k) init s tr) (hs : step k s e = some (s', o)) (hm : Obs.untilRet f d true t ∈ o) :
    (s.m.owner = none ∨ (k.isRec = true ∧ s.m.owner = some f)) ∧ s'.m.owner = some f ∧
    acquired f (tr ++ o) = acquired f tr + 1 := by
  have hone : o = [.untilRet f d true t] := by
    cases e with
    | run g => simp only [step, run] at hs; grind
    | _ => simp only [step] at hs; grind
  subst hone
  have ho := acquired_owner (f := f) h hs (by simp [acquired, List.countP_cons])
  have tk := (reach_inv h).tk
  refine ⟨?_, ho, by simp [acquired, List.countP_append, List.countP_cons]⟩
  cases e with
  | run g =>
    have tk := tk g
    simp only [step, run] at hs
    split at hs
    case h_7 =>
      rename_i d hp
      rw [untilCS_eq _ _ _ (tk (by simp [hp, isUntil]))] at hs
      grind
    all_goals grind
  | _ => simp only [step] at hs; grind

/-- **C06.** A notification is addressed only to a fiber suspended on the mutex at that moment, so never to one
that has returned. -/
theorem unlock_wakes_suspended {k : Kind} {s s' : State} {tr o : List Obs} {e : Event} {f g : Fid}
    (h : Reach (step k) init s tr) (hs : step k s e = some (s', o)) (hm : Obs.unlockRet f (some g) ∈ o) :
    Suspended s g ∧ step k s (.run g) = none ∧ step k s' (.run g) ≠ none := by
  have hi := reach_inv h
  have key : ∃ m, s.pc f = .unlockEntry ∧ (notifyOne s.c s.q).2.2 = some g ∧
      s' = { s with m := m, c := (notifyOne s.c s.q).1, q := (notifyOne s.c s.q).2.1, pc := upd s.pc f .idle } := by
    cases e with
    | run a =>
      simp only [step, run] at hs
      repeat' split at hs
      all_goals simp only [reduceCtorEq, Option.some.injEq, Prod.mk.injEq] at hs
      all_goals obtain ⟨rfl, rfl⟩ := hs
      all_goals simp only [List.mem_singleton, List.not_mem_nil, reduceCtorEq, Obs.unlockRet.injEq, and_false] at hm
      obtain ⟨rfl, hm⟩ := hm
      exact ⟨_, by assumption, hm.symm, rfl⟩
    | _ => simp only [step] at hs; grind
  obtain ⟨m, hp, hn, rfl⟩ := key
  rcases notifyOne_cases s.c s.q with ⟨ha, hb⟩ | ⟨pre, w, post, ha, hb, hc, hd⟩
  · rw [hb] at hn; cases hn
  · rw [hd] at hn; simp only [Option.some.injEq] at hn; subst hn
    obtain ⟨dl, hreg⟩ := hi.qi.mem w (by simp [ha])
    have hlv := hi.qi.live _ _ hreg hc
    have hwf : w.ctx ≠ f := by rintro he; rw [he, hp] at hreg; simp [regOf] at hreg
    have hwr : (wake s.c w).1.ready w.ctx = true := (wake_ready _ _ _).2 (Or.inr ⟨rfl, hc⟩)
    cases hpw : s.pc w.ctx with
    | lockWait ep =>
      refine ⟨Or.inl ⟨ep, hpw⟩, by simp [step, run, hpw, hlv.2], ?_⟩
      simp [step, run, upd_other _ _ hwf, hpw, hd, hwr]
    | untilWait ep d =>
      refine ⟨Or.inr ⟨ep, d, hpw⟩, by simp [step, run, hpw, hlv.2], ?_⟩
      simp only [step, run, upd_other _ _ hwf, hpw, hd, hwr]; simp only [if_true]; split <;> simp
    | untilUnlink ep d =>
      have := (hi.unl _ ep d hpw).1
      rw [hpw] at hreg; simp [regOf] at hreg
      have hc' : s.c.epoch w.ctx = w.ep := hc
      omega
    | _ => rw [hpw] at hreg; simp [regOf] at hreg

/-- Non-vacuity: a timed attempt that expires, and one that is served in time. -/
example : ∃ s, Reach (step .timed) init s
    [.called 1 .lock, .lockRet 1, .called 2 (.tryLockUntil 5), .blocks 2, .called 3 (.tryLockUntil 9), .blocks 3,
     .expired 2, .called 1 .unlock, .unlockRet 1 (some 3), .untilRet 3 9 true 6, .untilRet 2 5 false 6] := by
  refine ⟨_, reach_of_exec (es := [.call 1 .lock, .run 1, .call 2 (.tryLockUntil 5), .run 2, .run 2,
    .call 3 (.tryLockUntil 9), .run 3, .run 3, .tick 6, .timer 2, .call 1 .unlock, .run 1,
    .run 2, .run 3, .run 3, .run 3, .run 2]) rfl⟩

/-! ## C60, C61, C62: documented behaviour of single attempts -/

/-- **C62.** `try_lock` succeeds exactly if, at the moment it looks, the mutex is free or (recursive classes) the
caller holds it: it never fails spuriously. It never waits for another fiber: two own steps finish it. -/
theorem try_lock_exact {k : Kind} {s : State} {tr : List Obs} {f : Fid} (h : Reach (step k) init s tr)
    (hp : s.pc f = .tryEntry) (hnt : ¬ (k.isRec = false ∧ released f tr < acquired f tr)) :
    ((s.m.owner = none ∨ (k.isRec = true ∧ released f tr < acquired f tr)) →
      ∃ s', exec (step k) s [.run f, .run f] = some (s', [.tryRet f true])) ∧
    (¬ (s.m.owner = none ∨ (k.isRec = true ∧ released f tr < acquired f tr)) →
      ∃ s', exec (step k) s [.run f, .run f] = some (s', [.tryRet f false])) := by
  have hio := holds_iff_owner h (f := f) (by simp [hp])
  rw [hio] at hnt ⊢
  constructor
  · rintro (ho | ⟨hk, ho⟩)
    · simp [exec, step, run, hp, tryCS_eq, ho]
      split <;> rfl
    · simp [exec, step, run, hp, tryCS_eq, ho, hk]
  · intro hn
    have h1 : s.m.owner ≠ none := fun ho => hn (Or.inl ho)
    have h2 : s.m.owner ≠ some f := by
      intro ho; cases hk : k.isRec
      · exact hnt ⟨hk, ho⟩
      · exact hn (Or.inr ⟨hk, ho⟩)
    simp [exec, step, run, hp, tryCS_eq, h1, h2]

/-- **C60 is false of the code.** The documentation of `try_lock_until` says that with a time point already
passed it "behaves as try_lock"; on a free mutex it returns false instead, for every passed time point. -/
theorem passed_deadline_fails {k : Kind} (hk : k.hasTimed = true) (d : Nat) :
    ∃ s tr, Reach (step k) init s tr ∧ s.m.owner = none ∧ (∀ f, s.pc f = .idle) ∧
      ∃ s', exec (step k) s [.call 1 (.tryLockUntil d), .run 1] =
        some (s', [.called 1 (.tryLockUntil d), .untilRet 1 d false (d + 1)]) := by
  refine ⟨{ init with now := d + 1 }, _, reach_of_exec (es := [.tick (d + 1)]) (by simp [exec, step, init]; rfl), rfl,
    fun _ => rfl, ?_⟩
  simp [exec, step, run, init, entry, offered, hk]

/-- **C60, what holds.** With a time point not yet passed, `try_lock_until` on a free mutex succeeds at once. -/
theorem unexpired_deadline_takes_free_partial {k : Kind} {s : State} {tr : List Obs} {f : Fid} {d : Nat}
    (h : Reach (step k) init s tr) (hp : s.pc f = .untilEntry d) (hfree : s.m.owner = none) (hd : s.now ≤ d) :
    ∃ s', exec (step k) s [.run f, .run f] = some (s', [.untilRet f d true s.now]) := by
  have hkt := (reach_inv h).tk f (by simp [hp, isUntil])
  have : ¬ d < s.now := by omega
  simp [exec, step, run, hp, untilCS_eq _ _ _ hkt, hfree, this]

/-- **C61 is false of the code.** The documentation of `timed_mutex::try_lock_until` lists the error
`resource_deadlock_would_occur` for a caller that already owns the mutex; the call suspends instead. -/
theorem timed_owner_blocks_itself :
    ∃ s, Reach (step .timed) init s [.called 1 .lock, .lockRet 1, .called 1 (.tryLockUntil 5), .blocks 1] ∧
      s.m.owner = some 1 ∧ Suspended s 1 :=
  ⟨_, reach_of_exec (es := [.call 1 .lock, .run 1, .call 1 (.tryLockUntil 5), .run 1, .run 1]) rfl, rfl,
    Or.inr ⟨1, 5, rfl⟩⟩

/-- **C61, what holds.** An owner of a `timed_mutex` is never told that it acquired it a second time. -/
theorem timed_owner_never_true_partial {s s' : State} {tr o : List Obs} {e : Event} {f : Fid} {d t : Nat}
    (h : Reach (step .timed) init s tr) (hs : step .timed s e = some (s', o))
    (hh : released f tr < acquired f tr) (hp : s.pc f ≠ .tryYield) : Obs.untilRet f d true t ∉ o := by
  intro hm
  have ho := (holds_iff_owner h hp).1 hh
  rcases (timed_true_truthful h hs hm).1 with h1 | h1
  · rw [ho] at h1; cases h1
  · simp [Kind.isRec] at h1

end Verif.Mutex
