import Verif.CondVar

/-!
# Condition variable: C09 – C13

The specification `Spec` replays a trace of observations and knows nothing of queues, wakers, epochs or
spinlocks. It keeps who owns the lock, which fibers' locks have been released by a wait and not yet been
notified (in order), and the last value each caller's predicate had.
-/

namespace Verif.CondVar

structure Spec where
  holder  : Option Fid
  data    : Nat
  call    : Fid → Option Op          -- the wait call a fiber is in
  last    : Fid → Option Bool        -- value of its predicate, if evaluated since it last got the lock in that call
  waiting : List Fid                 -- lock released, neither notified nor expired; in order of the release
  notif   : Fid → Option Nat         -- time of the notification that released it
  ret     : Fid → Option Status      -- how the last inner wait of the call ended

def Spec.init : Spec :=
  { holder := none, data := 0, call := fun _ => none, last := fun _ => none, waiting := [],
    notif := fun _ => none, ret := fun _ => none }

/-- May a call `op` return `r`, given the last predicate value and the last inner status? -/
def mayReturn (op : Op) (last : Option Bool) (ret : Option Status) (r : Res) : Bool :=
  match op, r with
  | .wait, .void => ret = some .noTimeout
  | .until _, .status st => ret = some st
  | .waitPred, .void => last = some true
  | .untilPred _, .bool true => last = some true
  | .untilPred _, .bool false => last = some false ∧ ret = some .timeout
  | _, _ => false

/-- May the inner wait of `op` end with `st` at time `t`, having been notified at `n`? -/
def mayEnd (op : Op) (n : Option Nat) (st : Status) (t : Nat) : Bool :=
  match st, n, op.dl with
  | .noTimeout, some _, none => true
  | .noTimeout, some t0, some d => t0 < d
  | .timeout, _, some d => d ≤ t
  | _, _, _ => false

def Spec.next (P : Fid → Nat → Bool) (sp : Spec) : Obs → Option Spec
  | .locked f => if sp.holder = none then some { sp with holder := some f } else none
  | .unlocked f => if sp.holder = some f then some { sp with holder := none } else none
  | .wrote f v held => if held = decide (sp.holder = some f) then some { sp with data := v } else none
  | .called f op =>
    if sp.holder = some f ∧ sp.call f = none then
      some { sp with call := upd sp.call f (some op), last := upd sp.last f none, ret := upd sp.ret f none }
    else none
  | .evaled f b =>
    if sp.holder = some f ∧ b = P f sp.data then some { sp with last := upd sp.last f (some b) } else none
  | .released f =>
    match sp.call f with
    | none => none
    | some op =>
      if sp.holder = some f ∧ f ∉ sp.waiting ∧ (op.hasPred = true → sp.last f = some false) then
        some { sp with holder := none, waiting := sp.waiting ++ [f], last := upd sp.last f none,
                       notif := upd sp.notif f none }
      else none
  | .expired f t =>
    match (sp.call f).bind Op.dl with
    | none => none
    | some d =>
      if f ∈ sp.waiting ∧ d ≤ t then some { sp with waiting := sp.waiting.filter (· ≠ f) } else none
  | .notifiedOne _ w t =>
    if w = sp.waiting.head? then
      some { sp with waiting := sp.waiting.tail, notif := fun f => if w = some f then some t else sp.notif f }
    else none
  | .notifiedAll _ ws t =>
    if ws = sp.waiting then
      some { sp with waiting := [], notif := fun f => if f ∈ ws then some t else sp.notif f }
    else none
  | .waitRet f st t =>
    match sp.call f with
    | none => none
    | some op =>
      if sp.holder = none ∧ f ∉ sp.waiting ∧ mayEnd op (sp.notif f) st t = true then
        some { sp with holder := some f, ret := upd sp.ret f (some st), notif := upd sp.notif f none }
      else none
  | .done f r =>
    match sp.call f with
    | none => none
    | some op =>
      if sp.holder = some f ∧ mayReturn op (sp.last f) (sp.ret f) r = true then
        some { sp with call := upd sp.call f none }
      else none

def Spec.run (P : Fid → Nat → Bool) : Spec → List Obs → Option Spec
  | sp, [] => some sp
  | sp, o :: os =>
    match sp.next P o with
    | none => none
    | some sp' => sp'.run P os

theorem Spec.run_append {P : Fid → Nat → Bool} {t1 t2 : List Obs} : ∀ {sp sp1 : Spec},
    sp.run P t1 = some sp1 → sp.run P (t1 ++ t2) = sp1.run P t2 := by
  induction t1 with
  | nil => intro sp sp1 h; simp only [Spec.run, Option.some.injEq] at h; subst h; rfl
  | cons o os ih =>
    intro sp sp1 h
    simp only [Spec.run, List.cons_append] at h ⊢
    split at h
    · cases h
    · exact ih h

/-! ## Simulation -/

def callOf : Pc → Option Op
  | .eval op | .lastEval op | .entry op | .unlocking op | .enqueuing op | .waiting op _ | .unlink op _
  | .relock op _ => some op
  | .idle | .locking | .notifyOne | .notifyAll => none

def isEnq : Pc → Bool
  | .enqueuing _ => true
  | _ => false

/-- The fiber that has released its lock but is not yet in the queue (it holds the cv's spinlock). -/
def pend (s : State) : List Fid :=
  match s.splk with
  | some f => if isEnq (s.pc f) then [f] else []
  | none => []

structure Sim (s : State) (sp : Spec) : Prop where
  holder  : sp.holder = s.mtx
  data    : sp.data = s.data
  call    : ∀ f, sp.call f = callOf (s.pc f)
  waiting : sp.waiting = liveList s.c s.q ++ pend s
  last    : ∀ f op, (s.pc f = .entry op ∨ s.pc f = .unlocking op) → op.hasPred = true → sp.last f = some false
  ntime   : ∀ f t, sp.notif f = some t → t ≤ s.now
  woken   : ∀ f op ep, s.pc f = .waiting op ep → s.c.ready f = true →
    sp.notif f ≠ none ∨ ∃ d, op.dl = some d ∧ d ≤ s.now
  rel     : ∀ f op, s.pc f = .relock op .noTimeout →
    ∃ t, sp.notif f = some t ∧ ∀ d, op.dl = some d → t < d
  relT    : ∀ f op, s.pc f = .relock op .timeout → ∃ d, op.dl = some d ∧ d ≤ s.now
  lastT   : ∀ f op, s.pc f = .lastEval op → sp.ret f = some .timeout ∧ ∃ d, op = .untilPred d ∧ d ≤ s.now
  pred    : ∀ f op, s.pc f = .eval op → op.hasPred = true

theorem sim_init : Sim init Spec.init := by
  constructor <;> simp [init, Spec.init, callOf, pend, liveList]

theorem Sim.not_waiting {s : State} {sp : Spec} (h : Inv s) (m : Sim s sp) {f : Fid}
    (hr : regOf (s.pc f) = none) (he : isEnq (s.pc f) = false) : f ∉ sp.waiting := by
  rw [m.waiting, List.mem_append]
  rintro (hm | hm)
  · obtain ⟨r, h1, -⟩ := (h.w.mem_live (i := ())).1 hm; simp [hr] at h1
  · simp only [pend] at hm
    split at hm
    · split at hm
      · rename_i hx; simp only [List.mem_singleton] at hm; subst hm; simp [he] at hx
      · simp at hm
    · simp at hm

/-- A fiber suspended in a wait is one the specification still has waiting exactly if it cannot run. -/
theorem Sim.waiting_iff {s : State} {sp : Spec} (h : Inv s) (m : Sim s sp) {f : Fid} {op : Op} {ep : Nat}
    (hp : s.pc f = .waiting op ep) : f ∈ sp.waiting ↔ s.c.ready f = false := by
  rw [m.waiting, List.mem_append]
  have hnp : f ∉ pend s := by
    simp only [pend]; split
    · split
      · rename_i g _ hx; simp only [List.mem_singleton]; rintro rfl; simp [hp, isEnq] at hx
      · simp
    · simp
  have := h.w.mem_live_iff (f := f) (i := ())
  simp only [hp, regOf, Option.some.injEq] at this
  constructor
  · rintro (hm | hm)
    · obtain ⟨r, -, -, -, h4⟩ := this.1 hm; exact h4
    · exact absurd hm hnp
  · intro hr; exact Or.inl (this.2 ⟨_, rfl, trivial, rfl, hr⟩)

theorem pend_eq {s s' : State} (hs : s'.splk = s.splk) (hp : ∀ f, s.splk = some f → isEnq (s'.pc f) = isEnq (s.pc f)) :
    pend s' = pend s := by
  unfold pend; rw [hs]
  split
  · rename_i f hf; rw [hp f hf]
  · rfl

/-- Steps of one fiber that leave queue, contexts and spinlock alone. -/
theorem Sim.quiet {s s' : State} {sp sp' : Spec} {f : Fid} (hi : Inv s) (m : Sim s sp)
    (hc : s'.c = s.c) (hq : s'.q = s.q) (hn : s'.now = s.now) (hsk : s'.splk = s.splk)
    (hpc : ∀ g, g ≠ f → s'.pc g = s.pc g)
    (h1 : sp'.holder = s'.mtx) (h2 : sp'.data = s'.data)
    (h3 : ∀ g, sp'.call g = callOf (s'.pc g)) (h4 : sp'.waiting = sp.waiting)
    (h5 : ∀ g, g ≠ f → sp'.last g = sp.last g ∧ sp'.ret g = sp.ret g ∧ sp'.notif g = sp.notif g)
    (h6 : ∀ t, sp'.notif f = some t → t ≤ s.now)
    (hw : regOf (s.pc f) = none ∧ isEnq (s.pc f) = false)
    (hw' : regOf (s'.pc f) = none ∧ isEnq (s'.pc f) = false ∧ hasSplk (s'.pc f) = hasSplk (s.pc f))
    (l1 : ∀ op, (s'.pc f = .entry op ∨ s'.pc f = .unlocking op) → op.hasPred = true → sp'.last f = some false)
    (l2 : ∀ op, s'.pc f = .relock op .noTimeout → ∃ t, sp'.notif f = some t ∧ ∀ d, op.dl = some d → t < d)
    (l3 : ∀ op, s'.pc f = .relock op .timeout → ∃ d, op.dl = some d ∧ d ≤ s.now)
    (l4 : ∀ op, s'.pc f = .lastEval op → sp'.ret f = some .timeout ∧ ∃ d, op = .untilPred d ∧ d ≤ s.now)
    (l5 : ∀ op, s'.pc f = .eval op → op.hasPred = true) : Sim s' sp' := by
  have hp : pend s' = pend s := by
    apply pend_eq hsk
    intro g hg
    by_cases hgf : g = f
    · subst hgf; rw [hw.2, hw'.2.1]
    · rw [hpc g hgf]
  constructor
  · exact h1
  · exact h2
  · exact h3
  · rw [h4, m.waiting, hc, hq, hp]
  · intro g op hg hop
    by_cases hgf : g = f
    · subst hgf; exact l1 op hg hop
    · rw [hpc g hgf] at hg; rw [(h5 g hgf).1]; exact m.last g op hg hop
  · intro g t hg; rw [hn]
    by_cases hgf : g = f
    · subst hgf; exact h6 t hg
    · rw [(h5 g hgf).2.2] at hg; exact m.ntime g t hg
  · intro g op ep hg hr
    by_cases hgf : g = f
    · subst hgf; simp [hg, regOf] at hw'
    · rw [hpc g hgf] at hg; rw [(h5 g hgf).2.2, hn]; rw [hc] at hr; exact m.woken g op ep hg hr
  · intro g op hg
    by_cases hgf : g = f
    · subst hgf; exact l2 op hg
    · rw [hpc g hgf] at hg; rw [(h5 g hgf).2.2]; exact m.rel g op hg
  · intro g op hg; rw [hn]
    by_cases hgf : g = f
    · subst hgf; exact l3 op hg
    · rw [hpc g hgf] at hg; exact m.relT g op hg
  · intro g op hg; rw [hn]
    by_cases hgf : g = f
    · subst hgf; exact l4 op hg
    · rw [hpc g hgf] at hg; rw [(h5 g hgf).2.1]; exact m.lastT g op hg
  · intro g op hg
    by_cases hgf : g = f
    · subst hgf; exact l5 op hg
    · rw [hpc g hgf] at hg; exact m.pred g op hg

theorem sim_run {P : Fid → Nat → Bool} {s s' : State} {o : List Obs} {f : Fid} {sp : Spec} (hi : Inv s)
    (m : Sim s sp) (hs : run P s f = some (s', o)) : ∃ sp', sp.run P o = some sp' ∧ Sim s' sp' := by
  have hcall := m.call
  have hholder := m.holder
  have hcf := m.call f
  simp only [run] at hs
  split at hs
  · cases hs
  · -- locking
    rename_i hp
    split at hs <;> simp only [Option.some.injEq, Prod.mk.injEq, reduceCtorEq] at hs
    rename_i hm
    obtain ⟨rfl, rfl⟩ := hs
    refine ⟨{ sp with holder := some f }, by simp [Spec.run, Spec.next, m.holder, hm], ?_⟩
    apply m.quiet (f := f) hi <;> first | rfl | exact m.data | exact m.ntime f | skip
    all_goals grind [upd_apply, callOf, regOf, isEnq, hasSplk]
  · -- eval
    rename_i op hp
    have hpr := m.pred f op hp
    have hho := hi.hl f (by simp [hp, hasLock])
    have hd := m.data
    split at hs <;> simp only [Option.some.injEq, Prod.mk.injEq] at hs <;> obtain ⟨rfl, rfl⟩ := hs
    · rename_i hP
      refine ⟨{ sp with last := upd sp.last f (some true), call := upd sp.call f none }, ?_, ?_⟩
      · have hP' : P f sp.data = true := by rw [hd]; exact hP
        simp only [hp, callOf] at hcf
        cases op <;> simp [Op.hasPred] at hpr <;>
          simp [Spec.run, Spec.next, m.holder, hho, hP', hcf, mayReturn, predRes]
      · apply m.quiet (f := f) hi <;> first | rfl | exact m.holder | exact m.data | exact m.ntime f | skip
        all_goals grind [upd_apply, callOf, regOf, isEnq, hasSplk]
    · rename_i hP
      refine ⟨{ sp with last := upd sp.last f (some false) }, ?_, ?_⟩
      · have hP' : P f sp.data = false := by rw [hd]; simpa using hP
        simp [Spec.run, Spec.next, m.holder, hho, hP']
      · apply m.quiet (f := f) hi <;> first | rfl | exact m.holder | exact m.data | exact m.ntime f | skip
        all_goals grind [upd_apply, callOf, regOf, isEnq, hasSplk]
  · -- lastEval
    rename_i op hp
    obtain ⟨hret, d, rfl, hdn⟩ := m.lastT f op hp
    have hho := hi.hl f (by simp [hp, hasLock])
    simp only [Option.some.injEq, Prod.mk.injEq] at hs; obtain ⟨rfl, rfl⟩ := hs
    refine ⟨{ sp with last := upd sp.last f (some (P f s.data)), call := upd sp.call f none }, ?_, ?_⟩
    · simp only [hp, callOf] at hcf
      have hd := m.data
      cases hP : P f s.data <;>
        simp [Spec.run, Spec.next, m.holder, hho, hd, hP, hcf, mayReturn, predRes, hret]
    · apply m.quiet (f := f) hi <;> first | rfl | exact m.holder | exact m.data | exact m.ntime f | skip
      all_goals grind [upd_apply, callOf, regOf, isEnq, hasSplk]
  · -- entry
    rename_i op hp
    split at hs <;> simp only [Option.some.injEq, Prod.mk.injEq, reduceCtorEq] at hs
    rename_i hk
    obtain ⟨rfl, rfl⟩ := hs
    refine ⟨sp, rfl, ?_⟩
    obtain ⟨m1, m2, m3, m4, m5, m6, m7, m8, m9, m10, m11⟩ := m
    constructor
    · exact m1
    · exact m2
    · grind [upd_apply, callOf]
    · rw [m4]; simp [pend, hk, isEnq]
    all_goals grind [upd_apply]
  · -- unlocking
    rename_i op hp
    have hho := hi.hl f (by simp [hp, hasLock])
    have hsk := (hi.sp f).2 (by simp [hp, hasSplk])
    have hnw := m.not_waiting hi (f := f) (by simp [hp, regOf]) (by simp [hp, isEnq])
    have hl := m.last f op (Or.inr hp)
    simp only [Option.some.injEq, Prod.mk.injEq] at hs; obtain ⟨rfl, rfl⟩ := hs
    refine ⟨{ sp with holder := none, waiting := sp.waiting ++ [f], last := upd sp.last f none,
                      notif := upd sp.notif f none }, ?_, ?_⟩
    · simp only [hp, callOf] at hcf
      simp only [Spec.run, Spec.next, hcf]
      rw [if_pos ⟨by rw [m.holder]; exact hho, hnw, hl⟩]
    · obtain ⟨m1, m2, m3, m4, m5, m6, m7, m8, m9, m10, m11⟩ := m
      constructor
      · rfl
      · exact m2
      · grind [upd_apply, callOf]
      · simp only; rw [m4]; simp [pend, hsk, isEnq, hp]
      all_goals grind [upd_apply]
  · -- enqueuing
    rename_i op hp
    have hsk := (hi.sp f).2 (by simp [hp, hasSplk])
    have hoff := hi.w.off f (by simp [hp, regOf])
    simp only [Option.some.injEq, Prod.mk.injEq] at hs; obtain ⟨rfl, rfl⟩ := hs
    refine ⟨sp, rfl, ?_⟩
    have hll := hi.w.live_enqueue (f := f) (i := ()) (q' := fun _ => (enqueue s.c s.q f).2) (by simp [hp, regOf])
      (fun _ => rfl) ()
    obtain ⟨m1, m2, m3, m4, m5, m6, m7, m8, m9, m10, m11⟩ := m
    constructor
    · exact m1
    · exact m2
    · grind [upd_apply, callOf]
    · simp only at hll ⊢; rw [m4, hll]; simp [pend, hsk, hp, isEnq]
    · grind [upd_apply]
    · exact m6
    · intro g op' ep' hg hr
      have hr' : s.c.ready g = true := hr
      grind [upd_apply]
    all_goals grind [upd_apply]
  · -- waiting
    rename_i op ep hp
    split at hs <;> try simp only [reduceCtorEq] at hs
    rename_i hr
    have hwk := m.woken f op ep hp hr
    have hnt := m.ntime f
    have key : ∀ p, (p = Pc.relock op .noTimeout ∧ (∀ d, op.dl = some d → s.now < d)) ∨ (∃ ep, p = Pc.unlink op ep) →
        Sim { s with c := consumeReady s.c f, pc := upd s.pc f p } sp := by
      intro p hpp
      have hpe : isEnq p = false ∧ callOf p = some op := by
        rcases hpp with ⟨rfl, _⟩ | ⟨_, rfl⟩ <;> simp [isEnq, callOf]
      have hpd : pend { s with c := consumeReady s.c f, pc := upd s.pc f p } = pend s := by
        refine pend_eq (s := s) (s' := { s with c := consumeReady s.c f, pc := upd s.pc f p }) rfl ?_
        intro g hg; simp only [upd_apply]; split
        · subst_vars; rw [hp, hpe.1]; rfl
        · rfl
      obtain ⟨m1, m2, m3, m4, m5, m6, m7, m8, m9, m10, m11⟩ := m
      constructor
      · exact m1
      · exact m2
      · grind [upd_apply, callOf]
      · simp only [hpd, WInv.live_consume]; exact m4
      · grind [upd_apply]
      · exact m6
      · intro g op' ep' hg hr'
        simp only [consumeReady, upd_apply] at hr' hg
        grind
      · intro g op' hg
        simp only [upd_apply] at hg
        split at hg
        · subst_vars
          rcases hpp with ⟨hpp, hd⟩ | ⟨ep', hpp⟩
          · simp only [Pc.relock.injEq, and_true] at hpp; subst hpp
            rcases hwk with hwk | ⟨d, h1, h2⟩
            · obtain ⟨t, ht⟩ := Option.ne_none_iff_exists'.1 hwk
              refine ⟨t, ht, ?_⟩
              intro d hdd; have := hd d hdd; have := hnt t ht; omega
            · have := hd d h1; omega
          · cases hpp
        · exact m8 g op' hg
      all_goals grind [upd_apply]
    split at hs
    · rename_i hd
      simp only [Option.some.injEq, Prod.mk.injEq] at hs; obtain ⟨rfl, rfl⟩ := hs
      exact ⟨sp, rfl, key _ (Or.inl ⟨rfl, by simp [hd]⟩)⟩
    · rename_i d hd
      split at hs <;> simp only [Option.some.injEq, Prod.mk.injEq] at hs <;> obtain ⟨rfl, rfl⟩ := hs
      · rename_i hlt
        exact ⟨sp, rfl, key _ (Or.inl ⟨rfl, by simp [hd, hlt]⟩)⟩
      · exact ⟨sp, rfl, key _ (Or.inr ⟨_, rfl⟩)⟩
  · -- unlink
    rename_i op ep hp
    split at hs <;> simp only [Option.some.injEq, Prod.mk.injEq, reduceCtorEq] at hs
    rename_i hk
    obtain ⟨rfl, rfl⟩ := hs
    refine ⟨sp, rfl, ?_⟩
    have hlate := hi.w.late f ⟨(), ep, op.dl, true⟩ (by simp [hp, regOf]) rfl
    have hll := hi.w.live_unlink (f := f) (r := ⟨(), ep, op.dl, true⟩)
      (q' := fun _ => s.q.filter (· ≠ ⟨f, ep⟩)) (by simp [hp, regOf]) rfl (fun _ => rfl) ()
    obtain ⟨m1, m2, m3, m4, m5, m6, m7, m8, m9, m10, m11⟩ := m
    constructor
    · exact m1
    · exact m2
    · grind [upd_apply, callOf]
    · simp only at hll ⊢; rw [hll, m4]; simp [pend, hk]
    · grind [upd_apply]
    · exact m6
    · grind [upd_apply]
    · grind [upd_apply]
    · intro g op' hg
      simp only [upd_apply] at hg
      split at hg
      · subst_vars; simp only [Pc.relock.injEq, and_true] at hg; subst hg; exact hlate.2.2
      · exact m9 g op' hg
    all_goals grind [upd_apply]
  · -- relock
    rename_i op st hp
    split at hs <;> simp only [Option.some.injEq, Prod.mk.injEq, reduceCtorEq] at hs
    rename_i hmx
    obtain ⟨rfl, rfl⟩ := hs
    simp only [hp, callOf] at hcf
    have hnw := m.not_waiting hi (f := f) (by simp [hp, regOf]) (by simp [hp, isEnq])
    have hend : mayEnd op (sp.notif f) st s.now = true := by
      cases st with
      | noTimeout =>
        obtain ⟨t, h1, h2⟩ := m.rel f op hp
        rw [h1]; unfold mayEnd
        cases hd : op.dl with
        | none => rfl
        | some d => simpa using h2 d hd
      | timeout =>
        obtain ⟨d, h1, h2⟩ := m.relT f op hp
        unfold mayEnd; simp [h1, h2]
    have hdl : st = .timeout → ∃ d, op.dl = some d ∧ d ≤ s.now := by rintro rfl; exact m.relT f op hp
    have hnone : op.dl = none → st = .noTimeout := by
      intro hn; cases st with
      | noTimeout => rfl
      | timeout => obtain ⟨d, h1, -⟩ := hdl rfl; rw [hn] at h1; cases h1
    cases op with
    | wait =>
      have := hnone rfl; subst this
      refine ⟨{ sp with holder := some f, ret := upd sp.ret f (some .noTimeout), notif := upd sp.notif f none,
                        call := upd sp.call f none }, ?_, ?_⟩
      · simp [Spec.run, Spec.next, hcf, m.holder, hmx, hnw, hend, afterWait, mayReturn]
      · apply m.quiet (f := f) hi <;> first | rfl | exact m.data | skip
        all_goals grind [upd_apply, callOf, regOf, isEnq, hasSplk, afterWait]
    | «until» d =>
      refine ⟨{ sp with holder := some f, ret := upd sp.ret f (some st), notif := upd sp.notif f none,
                        call := upd sp.call f none }, ?_, ?_⟩
      · simp [Spec.run, Spec.next, hcf, m.holder, hmx, hnw, hend, afterWait, mayReturn]
      · apply m.quiet (f := f) hi <;> first | rfl | exact m.data | skip
        all_goals grind [upd_apply, callOf, regOf, isEnq, hasSplk, afterWait]
    | waitPred =>
      refine ⟨{ sp with holder := some f, ret := upd sp.ret f (some st), notif := upd sp.notif f none }, ?_, ?_⟩
      · simp [Spec.run, Spec.next, hcf, m.holder, hmx, hnw, hend, afterWait]
      · apply m.quiet (f := f) hi <;> first | rfl | exact m.data | skip
        all_goals grind [upd_apply, callOf, regOf, isEnq, hasSplk, afterWait, Op.hasPred]
    | untilPred d =>
      refine ⟨{ sp with holder := some f, ret := upd sp.ret f (some st), notif := upd sp.notif f none }, ?_, ?_⟩
      · cases st <;> simp [Spec.run, Spec.next, hcf, m.holder, hmx, hnw, hend, afterWait]
      · cases st
        · apply m.quiet (f := f) hi <;> first | rfl | exact m.data | skip
          all_goals grind [upd_apply, callOf, regOf, isEnq, hasSplk, afterWait, Op.hasPred]
        · obtain ⟨d', h1, h2⟩ := hdl rfl
          simp only [Op.dl, Option.some.injEq] at h1; subst h1
          apply m.quiet (f := f) hi <;> first | rfl | exact m.data | skip
          all_goals grind [upd_apply, callOf, regOf, isEnq, hasSplk, afterWait, Op.hasPred]
  · -- notifyOne
    rename_i hp
    split at hs <;> simp only [Option.some.injEq, Prod.mk.injEq, reduceCtorEq] at hs
    rename_i hk
    obtain ⟨rfl, rfl⟩ := hs
    have h1 := hi.w.notifyOne_eq ()
    have h2 := hi.w.live_notifyOne (i := ()) (q' := fun _ => (notifyOne s.c s.q).2.1) (fun _ => rfl) ()
    have h3 := hi.w.ready_notifyOne ()
    simp only at h1 h2 h3
    have hw : sp.waiting = liveList s.c s.q := by rw [m.waiting]; simp [pend, hk]
    refine ⟨{ sp with waiting := sp.waiting.tail,
                      notif := fun g => if (notifyOne s.c s.q).2.2 = some g then some s.now else sp.notif g }, ?_, ?_⟩
    · simp [Spec.run, Spec.next, hw, h1]
    · obtain ⟨m1, m2, m3, m4, m5, m6, m7, m8, m9, m10, m11⟩ := m
      constructor
      · exact m1
      · exact m2
      · grind [upd_apply, callOf]
      · simp only [pend, hk]; rw [h2, hw]; simp
      · grind [upd_apply]
      · intro g t hg; simp only at hg; split at hg
        · simp only [Option.some.injEq] at hg; simp [hg]
        · exact m6 g t hg
      · intro g op ep hg hr
        simp only at hr ⊢
        rw [h3 g] at hr
        rw [h1]
        have hg' : s.pc g = .waiting op ep := by
          simp only [upd_apply] at hg; split at hg
          · cases hg
          · exact hg
        simp only [Bool.or_eq_true, decide_eq_true_eq] at hr
        split
        · simp
        · rename_i hne
          rcases hr with hr | hr
          · exact m7 g op ep hg' hr
          · exact absurd hr hne
      · intro g op hg
        have hg' : s.pc g = .relock op .noTimeout := by
          simp only [upd_apply] at hg; split at hg
          · cases hg
          · exact hg
        have : (notifyOne s.c s.q).2.2 ≠ some g := by
          rw [h1]; intro he
          have hm := List.mem_of_head? he
          obtain ⟨r, hr, -⟩ := (hi.w.mem_live (i := ())).1 hm
          simp [hg', regOf] at hr
        simp only [this, if_false]; exact m8 g op hg'
      all_goals intro g op hg
      all_goals simp only [upd_apply] at hg; split at hg
      all_goals first | cases hg; done | skip
      · exact m9 g op hg
      · exact m10 g op hg
      · exact m11 g op hg
  · -- notifyAll
    rename_i hp
    split at hs <;> simp only [Option.some.injEq, Prod.mk.injEq, reduceCtorEq] at hs
    rename_i hk
    obtain ⟨rfl, rfl⟩ := hs
    have h1 := hi.w.notifyAll_eq ()
    have h2 := hi.w.live_notifyAll (i := ()) (q' := fun _ => []) (fun _ => rfl) ()
    have h3 := hi.w.ready_notifyAll ()
    simp only at h1 h2 h3
    have hw : sp.waiting = liveList s.c s.q := by rw [m.waiting]; simp [pend, hk]
    refine ⟨{ sp with waiting := [],
                      notif := fun g => if g ∈ (notifyAll s.c s.q).2 then some s.now else sp.notif g }, ?_, ?_⟩
    · simp [Spec.run, Spec.next, hw, h1]
    · obtain ⟨m1, m2, m3, m4, m5, m6, m7, m8, m9, m10, m11⟩ := m
      constructor
      · exact m1
      · exact m2
      · grind [upd_apply, callOf]
      · simp only [pend, hk]; rw [h2]; simp
      · grind [upd_apply]
      · intro g t hg; simp only at hg; split at hg
        · simp only [Option.some.injEq] at hg; simp [hg]
        · exact m6 g t hg
      · intro g op ep hg hr
        simp only at hr ⊢
        rw [h3 g] at hr
        rw [h1]
        have hg' : s.pc g = .waiting op ep := by
          simp only [upd_apply] at hg; split at hg
          · cases hg
          · exact hg
        simp only [Bool.or_eq_true, decide_eq_true_eq] at hr
        split
        · simp
        · rename_i hne
          rcases hr with hr | hr
          · exact m7 g op ep hg' hr
          · exact absurd hr hne
      · intro g op hg
        have hg' : s.pc g = .relock op .noTimeout := by
          simp only [upd_apply] at hg; split at hg
          · cases hg
          · exact hg
        have : g ∉ (notifyAll s.c s.q).2 := by
          rw [h1]; intro hm
          obtain ⟨r, hr, -⟩ := (hi.w.mem_live (i := ())).1 hm
          simp [hg', regOf] at hr
        simp only [this, if_false]; exact m8 g op hg'
      all_goals intro g op hg
      all_goals simp only [upd_apply] at hg; split at hg
      all_goals first | cases hg; done | skip
      · exact m9 g op hg
      · exact m10 g op hg
      · exact m11 g op hg

theorem sim_step {P : Fid → Nat → Bool} {s s' : State} {o : List Obs} {e : Event} {sp : Spec} (hi : Inv s)
    (m : Sim s sp) (hs : step P s e = some (s', o)) : ∃ sp', sp.run P o = some sp' ∧ Sim s' sp' := by
  have hcall := m.call
  cases e with
  | run f => exact sim_run hi m hs
  | timer f =>
    simp only [step] at hs
    split at hs <;> try simp only [reduceCtorEq] at hs
    rename_i op ep hp
    split at hs <;> try simp only [reduceCtorEq] at hs
    rename_i d hd
    split at hs <;> simp only [Option.some.injEq, Prod.mk.injEq, reduceCtorEq] at hs
    rename_i hle
    obtain ⟨rfl, rfl⟩ := hs
    have hreg : regOf (s.pc f) = some ⟨(), ep, op.dl, false⟩ := by simp [hp, regOf]
    have h1 := hi.w.live_timer (f := f) hreg ()
    have hok := WInv.wake_ok (c := s.c) (f := f) (⟨(), ep, op.dl, false⟩ : WReg Unit)
    have hnr := hi.w.not_ready_iff hreg rfl
    have hwi := m.waiting_iff hi hp
    simp only at h1 hok hnr
    have hpd : ∀ c', pend { s with c := c' } = pend s := fun _ => rfl
    have hnp : (pend s).filter (· ≠ f) = pend s := by
      rw [List.filter_eq_self]; intro g hg; simp only [ne_eq, decide_eq_true_eq]; rintro rfl
      simp only [pend] at hg; split at hg
      · split at hg
        · rename_i hx; simp only [List.mem_singleton] at hg; subst hg; simp [hp, isEnq] at hx
        · simp at hg
      · simp at hg
    have hmk : ∀ sp' : Spec, sp'.holder = sp.holder → sp'.data = sp.data → sp'.call = sp.call →
        sp'.waiting = sp.waiting.filter (· ≠ f) → sp'.last = sp.last → sp'.notif = sp.notif → sp'.ret = sp.ret →
        Sim { s with c := (wake s.c ⟨f, ep⟩).1 } sp' := by
      intro sp' e1 e2 e3 e4 e5 e6 e7
      obtain ⟨m1, m2, m3, m4, m5, m6, m7, m8, m9, m10, m11⟩ := m
      constructor
      · rw [e1]; exact m1
      · rw [e2]; exact m2
      · rw [e3]; exact m3
      · rw [e4, m4, h1, List.filter_append, hnp]; rfl
      · rw [e5]; exact m5
      · rw [e6]; exact m6
      · intro g op' ep' hg hr
        rw [e6]
        simp only [wake_ready] at hr
        rcases hr with hr | ⟨hgf, -⟩
        · exact m7 g op' ep' hg hr
        · subst hgf; simp only at hg; rw [hp] at hg; cases hg; exact Or.inr ⟨d, hd, hle⟩
      · rw [e6]; exact m8
      · exact m9
      · rw [e7]; exact m10
      · exact m11
    by_cases hl : s.c.epoch f = ep
    · have hin : f ∈ sp.waiting := by rw [hwi, hnr]; exact hl
      have hcf := m.call f
      simp only [hp, callOf] at hcf
      refine ⟨{ sp with waiting := sp.waiting.filter (· ≠ f) }, ?_, hmk _ rfl rfl rfl rfl rfl rfl rfl⟩
      simp [hok, hl, Spec.run, Spec.next, hcf, hd, hin, hle]
    · have hout : f ∉ sp.waiting := by rw [hwi, hnr]; exact hl
      refine ⟨sp, by simp [hok, hl, Spec.run], hmk sp rfl rfl rfl ?_ rfl rfl rfl⟩
      symm; rw [List.filter_eq_self]; intro g hg; simp only [ne_eq, decide_eq_true_eq]; rintro rfl; exact hout hg
  | tick n =>
    simp only [step, Option.some.injEq, Prod.mk.injEq] at hs
    obtain ⟨rfl, rfl⟩ := hs
    refine ⟨sp, rfl, ?_⟩
    obtain ⟨m1, m2, m3, m4, m5, m6, m7, m8, m9, m10, m11⟩ := m
    constructor <;> try assumption
    · intro g t hg; have := m6 g t hg; simp only; omega
    · intro g op ep hg hr; rcases m7 g op ep hg hr with h | ⟨d, h1, h2⟩
      · exact Or.inl h
      · exact Or.inr ⟨d, h1, by simp only; omega⟩
    · intro g op hg; obtain ⟨d, h1, h2⟩ := m9 g op hg; exact ⟨d, h1, by simp only; omega⟩
    · intro g op hg; obtain ⟨h0, d, h1, h2⟩ := m10 g op hg; exact ⟨h0, d, h1, by simp only; omega⟩
  | elsewhere f n =>
    simp only [step] at hs
    split at hs <;> simp only [Option.some.injEq, Prod.mk.injEq, reduceCtorEq] at hs
    rename_i hg
    obtain ⟨rfl, rfl⟩ := hs
    refine ⟨sp, rfl, ?_⟩
    have hll := hi.w.live_elsewhere (f := f) (by simp [hg, regOf]) n ()
    obtain ⟨m1, m2, m3, m4, m5, m6, m7, m8, m9, m10, m11⟩ := m
    constructor <;> try assumption
    simp only at hll ⊢; rw [hll]; exact m4
  | lock f =>
    simp only [step] at hs
    split at hs <;> simp only [Option.some.injEq, Prod.mk.injEq, reduceCtorEq] at hs
    rename_i hg
    obtain ⟨rfl, rfl⟩ := hs
    refine ⟨sp, rfl, ?_⟩
    apply m.quiet (f := f) hi <;> first | rfl | exact m.holder | exact m.data | exact m.ntime f | skip
    all_goals grind [upd_apply, callOf, regOf, isEnq, hasSplk]
  | unlock f =>
    simp only [step] at hs
    split at hs <;> simp only [Option.some.injEq, Prod.mk.injEq, reduceCtorEq] at hs
    rename_i hg
    obtain ⟨rfl, rfl⟩ := hs
    refine ⟨{ sp with holder := none }, by simp [Spec.run, Spec.next, m.holder, hg.2], ?_⟩
    apply m.quiet (f := f) hi <;> first | rfl | exact m.holder | exact m.data | exact m.ntime f | skip
    all_goals grind [upd_apply, callOf, regOf, isEnq, hasSplk]
  | write f v =>
    simp only [step] at hs
    split at hs <;> simp only [Option.some.injEq, Prod.mk.injEq, reduceCtorEq] at hs
    rename_i hg
    obtain ⟨rfl, rfl⟩ := hs
    refine ⟨{ sp with data := v }, by simp [Spec.run, Spec.next, m.holder], ?_⟩
    apply m.quiet (f := f) hi <;> first | rfl | exact m.holder | exact m.data | exact m.ntime f | skip
    all_goals grind [upd_apply, callOf, regOf, isEnq, hasSplk]
  | call f op =>
    simp only [step] at hs
    split at hs <;> simp only [Option.some.injEq, Prod.mk.injEq, reduceCtorEq] at hs
    rename_i hg
    obtain ⟨rfl, rfl⟩ := hs
    have hcf := m.call f
    simp only [hg.1, callOf] at hcf
    refine ⟨{ sp with call := upd sp.call f (some op), last := upd sp.last f none, ret := upd sp.ret f none },
      by simp [Spec.run, Spec.next, m.holder, hg.2, hcf], ?_⟩
    have hst : (op.hasPred = true ∧ start op = .eval op) ∨ (op.hasPred = false ∧ start op = .entry op) := by
      unfold start; cases op.hasPred <;> simp
    apply m.quiet (f := f) hi <;> first | rfl | exact m.holder | exact m.data | exact m.ntime f | skip
    all_goals grind [upd_apply, callOf, regOf, isEnq, hasSplk]
  | notifyOne f =>
    simp only [step] at hs
    split at hs <;> simp only [Option.some.injEq, Prod.mk.injEq, reduceCtorEq] at hs
    rename_i hg
    obtain ⟨rfl, rfl⟩ := hs
    refine ⟨sp, rfl, ?_⟩
    apply m.quiet (f := f) hi <;> first | rfl | exact m.holder | exact m.data | exact m.ntime f | skip
    all_goals grind [upd_apply, callOf, regOf, isEnq, hasSplk]
  | notifyAll f =>
    simp only [step] at hs
    split at hs <;> simp only [Option.some.injEq, Prod.mk.injEq, reduceCtorEq] at hs
    rename_i hg
    obtain ⟨rfl, rfl⟩ := hs
    refine ⟨sp, rfl, ?_⟩
    apply m.quiet (f := f) hi <;> first | rfl | exact m.holder | exact m.data | exact m.ntime f | skip
    all_goals grind [upd_apply, callOf, regOf, isEnq, hasSplk]

theorem refine_sim {P : Fid → Nat → Bool} {s : State} {tr : List Obs} (h : Reach (step P) init s tr) :
    ∃ sp, Spec.init.run P tr = some sp ∧ Sim s sp := by
  refine Reach.inv (fun s tr => ∃ sp, Spec.init.run P tr = some sp ∧ Sim s sp) ⟨_, rfl, sim_init⟩ ?_ h
  rintro s tr e s' o hr ⟨sp, h1, h2⟩ hs
  obtain ⟨sp', h3, h4⟩ := sim_step (reach_inv hr) h2 hs
  exact ⟨sp', by rw [Spec.run_append h1]; exact h3, h4⟩


/-! ## C09: no notification is missed -/

/-- **C09.** Every trace the code can produce is accepted by the specification. In particular `notify_all`
always releases *every* fiber whose lock a wait has released before (`notifiedAll _ ws` requires
`ws = waiting`, and a fiber enters `waiting` at the very moment its lock is released), and `notify_one`
releases the longest waiting of them, if there is any. -/
theorem conforms {P : Fid → Nat → Bool} {s : State} {tr : List Obs} (h : Reach (step P) init s tr) :
    ∃ sp, Spec.init.run P tr = some sp := by
  obtain ⟨sp, h1, -⟩ := refine_sim h; exact ⟨sp, h1⟩

/-- **C09.** And "released" is real: a suspended fiber that the history shows as notified or expired can run,
one that is still waiting cannot. -/
theorem released_iff_runnable {P : Fid → Nat → Bool} {s : State} {tr : List Obs} {sp : Spec} {f : Fid} {op : Op}
    {ep : Nat} (h : Reach (step P) init s tr) (hsp : Spec.init.run P tr = some sp)
    (hp : s.pc f = .waiting op ep) : f ∈ sp.waiting ↔ step P s (.run f) = none := by
  obtain ⟨sp', h1, h2⟩ := refine_sim h
  rw [hsp] at h1; cases h1
  rw [h2.waiting_iff (reach_inv h) hp]
  simp only [step, run, hp]
  cases s.c.ready f
  · simp
  · simp only [if_true, Bool.true_eq_false, false_iff]
    split
    · simp
    · split <;> simp

/-- Has some write not yet been followed by a `notify_all`? -/
def unannounced (tr : List Obs) : Bool :=
  tr.foldl (fun b o => match o with | .wrote _ _ _ => true | .notifiedAll _ _ _ => false | _ => b) false

theorem unannounced_append (t1 t2 : List Obs) : unannounced (t1 ++ t2) =
    t2.foldl (fun b o => match o with | .wrote _ _ _ => true | .notifiedAll _ _ _ => false | _ => b) (unannounced t1) := by
  unfold unannounced; rw [List.foldl_append]

/-- Every write so far was made by a fiber that held the lock. -/
def Disciplined (tr : List Obs) : Prop := ∀ f v, Obs.wrote f v false ∉ tr

/-- Between the false evaluation and the suspension's end. -/
def asleep (c : Ctxs) (f : Fid) : Pc → Bool
  | .entry op | .unlocking op | .enqueuing op => op.hasPred
  | .waiting op _ => op.hasPred && !c.ready f
  | _ => false

structure PInv (P : Fid → Nat → Bool) (s : State) (tr : List Obs) : Prop where
  p : ∀ f, asleep s.c f (s.pc f) = true → P f s.data = true →
    unannounced tr = true ∧ hasLock (s.pc f) = false

theorem pinv_step {P : Fid → Nat → Bool} {s s' : State} {tr o : List Obs} {e : Event} (hi : Inv s)
    (hp0 : Disciplined (tr ++ o) → PInv P s tr) (hs : step P s e = some (s', o)) (hd : Disciplined (tr ++ o)) :
    PInv P s' (tr ++ o) := by
  have hp := (hp0 hd).p
  clear hp0
  constructor
  intro g ha hP
  rw [unannounced_append]
  cases e with
  | write f v =>
    simp only [step] at hs
    split at hs <;> simp only [Option.some.injEq, Prod.mk.injEq, reduceCtorEq] at hs
    rename_i hf
    obtain ⟨rfl, rfl⟩ := hs
    simp only [List.foldl_cons, List.foldl_nil, true_and]
    have hm : s.mtx = some f := by
      have := hd f v
      simp only [List.mem_append, List.mem_singleton, Obs.wrote.injEq, true_and, not_or] at this
      by_cases hx : s.mtx = some f
      · exact hx
      · simp [hx] at this
    cases hh : hasLock (s.pc g)
    · rfl
    · have := hi.hl g hh; rw [hm] at this; cases this; simp [hf, hasLock] at hh
  | run f =>
    simp only [step, run] at hs
    split at hs
    case h_8 =>
      rename_i op ep hpc
      split at hs <;> try simp only [reduceCtorEq] at hs
      rename_i hr
      have key : ∀ p, (∀ c, asleep c f p = false) →
          s' = { s with c := consumeReady s.c f, pc := upd s.pc f p } → o = [] →
          (List.foldl (fun b o => match o with | .wrote _ _ _ => true | .notifiedAll _ _ _ => false | _ => b)
            (unannounced tr) o = true ∧ hasLock (s'.pc g) = false) := by
        rintro p hpa rfl rfl
        simp only [List.foldl_nil]
        by_cases hgf : g = f
        · subst hgf; simp [hpa] at ha
        · simp only [upd_other _ _ hgf] at ha ⊢
          apply hp g _ hP
          cases hpg : s.pc g <;> simp [hpg, asleep, consumeReady, hgf] at ha ⊢ <;> exact ha
      split at hs
      · simp only [Option.some.injEq, Prod.mk.injEq] at hs
        exact key _ (fun _ => rfl) hs.1.symm hs.2.symm
      · split at hs <;> simp only [Option.some.injEq, Prod.mk.injEq] at hs <;>
          exact key _ (fun _ => rfl) hs.1.symm hs.2.symm
    case h_11 =>
      split at hs <;> simp only [Option.some.injEq, Prod.mk.injEq, reduceCtorEq] at hs
      obtain ⟨rfl, rfl⟩ := hs
      simp only [List.foldl_cons, List.foldl_nil]
      by_cases hgf : g = f
      · subst hgf; simp [asleep] at ha
      · simp only [upd_other _ _ hgf] at ha ⊢
        apply hp g _ hP
        have := hi.w.ready_notifyOne () g
        cases hpg : s.pc g <;> simp [hpg, asleep, this] at ha ⊢ <;> first | exact ha | exact ⟨ha.1, ha.2.1⟩
    case h_12 =>
      rename_i hpf
      split at hs <;> simp only [Option.some.injEq, Prod.mk.injEq, reduceCtorEq] at hs
      rename_i hk
      obtain ⟨rfl, rfl⟩ := hs
      exfalso
      by_cases hgf : g = f
      · subst hgf; simp [asleep] at ha
      · simp only [upd_other _ _ hgf] at ha
        have hr := hi.w.ready_notifyAll () g
        have hsp := hi.sp g
        have hml := hi.w.mem_live_iff (f := g) (i := ())
        have hpp := hp g
        cases hpg : s.pc g <;> simp [hpg, asleep, hr, regOf, hk, hasSplk, hasLock] at ha hsp hml hpp
        · exact absurd hP (by simpa using hpp ha)
        · exact ha.2.2 (hml.2 ha.2.1)
    case h_7 =>
      rename_i op hpc
      simp only [Option.some.injEq, Prod.mk.injEq] at hs; obtain ⟨rfl, rfl⟩ := hs
      simp only [List.foldl_nil]
      by_cases hgf : g = f
      · subst hgf
        simp only [upd_same, asleep, Bool.and_eq_true] at ha ⊢
        refine ⟨(hp g (by simp [hpc, asleep, ha.1]) hP).1, rfl⟩
      · simp only [upd_other _ _ hgf] at ha ⊢
        exact hp g ha hP
    case h_10 =>
      rename_i op st hpc
      split at hs <;> simp only [Option.some.injEq, Prod.mk.injEq, reduceCtorEq] at hs
      obtain ⟨rfl, rfl⟩ := hs
      by_cases hgf : g = f
      · subst hgf
        exfalso; revert ha; simp only [upd_same]; unfold afterWait; split <;> (try split) <;> simp [asleep]
      · simp only [upd_other _ _ hgf] at ha ⊢
        have := hp g ha hP
        refine ⟨?_, this.2⟩
        unfold afterWait; split <;> (try split) <;> simp [this.1]
    all_goals (repeat' split at hs) <;> simp only [Option.some.injEq, Prod.mk.injEq, reduceCtorEq] at hs
    all_goals obtain ⟨rfl, rfl⟩ := hs
    all_goals simp only [List.foldl_cons, List.foldl_nil]
    all_goals
      by_cases hgf : g = f
      · subst hgf
        simp only [upd_same, asleep, Bool.false_eq_true] at ha
        try (have := hp g; grind [asleep, hasLock])
      · simp only [upd_other _ _ hgf] at ha ⊢
        exact hp g ha hP
  | timer f =>
    simp only [step] at hs
    split at hs <;> try simp only [reduceCtorEq] at hs
    split at hs <;> try simp only [reduceCtorEq] at hs
    split at hs <;> simp only [Option.some.injEq, Prod.mk.injEq, reduceCtorEq] at hs
    rename_i op ep hpf _ d hd hle
    obtain ⟨rfl, rfl⟩ := hs
    have hw := wake_ready s.c ⟨f, ep⟩ g
    have : asleep s.c g (s.pc g) = true := by
      cases hpg : s.pc g <;> simp only [hpg, asleep] at ha ⊢ <;> try exact ha
      simp only [Bool.and_eq_true, Bool.not_eq_true'] at ha ⊢
      refine ⟨ha.1, ?_⟩
      cases hr : s.c.ready g
      · rfl
      · rw [hw.2 (Or.inl hr)] at ha; simp at ha
    have := hp g this hP
    refine ⟨?_, this.2⟩
    split <;> simp [this.1]
  | elsewhere f n =>
    simp only [step] at hs
    split at hs <;> simp only [Option.some.injEq, Prod.mk.injEq, reduceCtorEq] at hs
    obtain ⟨rfl, rfl⟩ := hs
    exact hp g (by cases hpg : s.pc g <;> simp only [hpg, asleep] at ha ⊢ <;> exact ha) hP
  | tick n =>
    simp only [step, Option.some.injEq, Prod.mk.injEq] at hs
    obtain ⟨rfl, rfl⟩ := hs
    exact hp g ha hP
  | call f op =>
    simp only [step] at hs
    split at hs <;> simp only [Option.some.injEq, Prod.mk.injEq, reduceCtorEq] at hs
    obtain ⟨rfl, rfl⟩ := hs
    simp only [List.foldl_cons, List.foldl_nil]
    by_cases hgf : g = f
    · subst hgf
      exfalso; revert ha; simp only [upd_same]; unfold start; cases op <;> simp [Op.hasPred, asleep]
    · simp only [upd_other _ _ hgf] at ha ⊢
      exact hp g ha hP
  | _ =>
    rename_i f
    simp only [step] at hs
    split at hs <;> simp only [Option.some.injEq, Prod.mk.injEq, reduceCtorEq] at hs
    obtain ⟨rfl, rfl⟩ := hs
    simp only [List.foldl_cons, List.foldl_nil]
    first
    | exact hp g ha hP
    | (by_cases hgf : g = f
       · subst hgf; simp [asleep] at ha
       · simp only [upd_other _ _ hgf] at ha ⊢
         exact hp g ha hP)

/-- **C09.** Nobody sleeps through a change. If the data is only written under the lock and the last write
has been followed by a `notify_all` (sent with or without the lock), then no fiber is left suspended in
`wait(lk, pred)`/`wait_until(lk, tp, pred)` although its predicate is true: it can run. -/
theorem no_lost_update {P : Fid → Nat → Bool} {s : State} {tr : List Obs} {f : Fid} {op : Op} {ep : Nat}
    (h : Reach (step P) init s tr) (hd : Disciplined tr) (ha : unannounced tr = false)
    (hp : s.pc f = .waiting op ep) (hop : op.hasPred = true) (hP : P f s.data = true) :
    step P s (.run f) ≠ none := by
  have key : Disciplined tr → PInv P s tr := by
    refine Reach.inv (fun s tr => Disciplined tr → PInv P s tr) ?_ ?_ h
    · intro _; constructor; intro f; simp [init, asleep]
    · intro s tr e s' o hr ih hs hd
      exact pinv_step (reach_inv hr) (fun hd => ih (fun f v hm => hd f v (by simp [hm]))) hs hd
  have hp' := (key hd).p f
  simp only [hp, asleep, hop, Bool.true_and, Bool.not_eq_true', ha, Bool.false_eq_true, false_and] at hp'
  simp only [step, run, hp]
  cases hr : s.c.ready f
  · exact (hp' hr hP).elim
  · simp only [if_true]
    split
    · simp
    · split <;> simp

/-- The predicate used in the examples: the data is nonzero. -/
def nz : Fid → Nat → Bool := fun _ v => v ≠ 0

/-- Non-vacuity: 1 waits for nonzero data; 2 writes under the lock, unlocks, and notifies. The notifier calls
`notify_all` while 1 is between releasing its lock and enqueuing, so it has to wait for the spinlock. -/
example : ∃ s tr ep, Reach (step nz) init s tr ∧ Disciplined tr ∧ unannounced tr = false ∧
    s.pc 1 = .waiting .waitPred ep ∧ nz 1 s.data = true := by
  refine ⟨_, [.locked 1, .called 1 .waitPred, .evaled 1 false, .released 1, .locked 2, .wrote 2 7 true,
      .unlocked 2, .notifiedAll 2 [1] 0], 1,
    reach_of_exec (es := [.lock 1, .run 1, .call 1 .waitPred, .run 1, .run 1, .run 1,
      .lock 2, .run 2, .write 2 7, .unlock 2, .notifyAll 2, .run 1, .run 2]) rfl, ?_, rfl, rfl, rfl⟩
  intro f v; simp

/-- The spinlock matters: while 1 is between releasing its lock and enqueuing, `notify_all` cannot proceed. -/
example : ∃ s tr, Reach (step nz) init s tr ∧ s.pc 1 = .enqueuing .wait ∧ s.pc 2 = .notifyAll ∧
    step nz s (.run 2) = none :=
  ⟨_, _, reach_of_exec (es := [.lock 1, .run 1, .call 1 .wait, .run 1, .run 1, .notifyAll 2]) rfl, rfl, rfl, rfl⟩

/-! ## C10: no spurious wake-ups -/

/-- Returns of (inner) waits of `f` that report a notification. -/
def wokenReturns (f : Fid) (tr : List Obs) : Nat :=
  tr.countP fun o => match o with | .waitRet g .noTimeout _ => g == f | _ => false

/-- Notifications that released `f`. -/
def notifications (f : Fid) (tr : List Obs) : Nat :=
  tr.countP fun o => match o with
    | .notifiedOne _ w _ => w == some f
    | .notifiedAll _ ws _ => ws.contains f
    | _ => false

theorem spec_counts {P : Fid → Nat → Bool} (f : Fid) : ∀ (tr : List Obs) (sp sp' : Spec),
    sp.run P tr = some sp' →
    wokenReturns f tr + (if sp'.notif f = none then 0 else 1) ≤
      notifications f tr + (if sp.notif f = none then 0 else 1) := by
  intro tr
  induction tr with
  | nil => intro sp sp' h; simp only [Spec.run, Option.some.injEq] at h; subst h; simp [wokenReturns, notifications]
  | cons o os ih =>
    intro sp sp' h
    simp only [Spec.run] at h
    split at h
    · cases h
    · rename_i sp1 h1
      have := ih sp1 sp' h
      have key : (if (match o with | .waitRet g .noTimeout _ => g == f | _ => false) then 1 else 0) +
          (if sp1.notif f = none then 0 else 1) ≤
          (if (match o with
            | .notifiedOne _ w _ => w == some f
            | .notifiedAll _ ws _ => ws.contains f
            | _ => false) then 1 else 0) + (if sp.notif f = none then 0 else 1) := by
        cases o with
        | waitRet g st t =>
          simp only [Spec.next] at h1
          split at h1
          · cases h1
          · rename_i op hop
            split at h1
            · rename_i hc
              simp only [Option.some.injEq] at h1; subst h1
              cases st
              · by_cases hgf : g = f
                · subst hgf
                  have : sp.notif g ≠ none := by
                    intro hn; rw [hn] at hc; simp [mayEnd] at hc
                  simp [this]
                · simp [hgf, Ne.symm hgf, upd_apply]
              · simp only [upd_apply, Bool.false_eq_true, if_false]; split <;> simp
            · cases h1
        | notifiedOne g w t =>
          simp only [Spec.next] at h1
          split at h1 <;> simp only [Option.some.injEq, reduceCtorEq] at h1
          subst h1; simp only [beq_iff_eq, Bool.false_eq_true, if_false]; split <;> simp
        | notifiedAll g ws t =>
          simp only [Spec.next] at h1
          split at h1 <;> simp only [Option.some.injEq, reduceCtorEq] at h1
          subst h1; simp only [List.contains_iff_mem, Bool.false_eq_true, if_false]; split <;> simp
        | released g =>
          simp only [Spec.next] at h1
          split at h1
          · cases h1
          · split at h1 <;> simp only [Option.some.injEq, reduceCtorEq] at h1
            subst h1; simp only [upd_apply, Bool.false_eq_true, if_false]; split <;> simp
        | _ =>
          simp only [Spec.next] at h1
          (repeat' split at h1) <;> simp only [Option.some.injEq, reduceCtorEq] at h1
          all_goals subst h1; simp
      simp only [wokenReturns, notifications, List.countP_cons] at this ⊢
      omega

/-- **C10.** The number of times waits of `f` have returned as notified never exceeds the number of
notifications that released `f`; since `notify_one` names at most one fiber, each `notify_one` accounts for at
most one return. (An untimed wait can only return that way, see `untimed_return_is_notified`.) -/
theorem no_spurious_wakeup {P : Fid → Nat → Bool} {s : State} {tr : List Obs} (h : Reach (step P) init s tr)
    (f : Fid) : wokenReturns f tr ≤ notifications f tr := by
  obtain ⟨sp, h1⟩ := conforms h
  have := spec_counts f tr _ _ h1
  simp [Spec.init] at this
  omega

/-- **C10.** An untimed wait reports nothing but a notification. -/
theorem untimed_return_is_notified {P : Fid → Nat → Bool} {s s' : State} {tr o : List Obs} {e : Event} {f : Fid}
    {st : Status} {t : Nat} {sp : Spec} {op : Op} (h : Reach (step P) init s tr)
    (hs : step P s e = some (s', o)) (hm : Obs.waitRet f st t ∈ o) (hsp : Spec.init.run P tr = some sp)
    (hc : sp.call f = some op) (hdl : op.dl = none) : st = .noTimeout ∧ sp.notif f ≠ none := by
  obtain ⟨sp1, h1, h2⟩ := refine_sim (Reach.tail e h hs)
  rw [Spec.run_append hsp] at h1
  have ho : ∃ rest, o = .waitRet f st t :: rest := by
    cases e with
    | run g =>
      simp only [step, run] at hs
      (repeat' split at hs) <;> simp only [Option.some.injEq, Prod.mk.injEq, reduceCtorEq] at hs
      all_goals obtain ⟨rfl, rfl⟩ := hs
      all_goals simp [afterWait] at hm
      rename_i op' st' _ _
      rcases hm with hm | hm
      · simp [hm]
      · exfalso; revert hm; cases op' <;> simp <;> split <;> simp
    | _ => simp only [step] at hs; grind
  obtain ⟨rest, rfl⟩ := ho
  simp only [Spec.run, Spec.next, hc] at h1
  split at h1
  · cases h1
  · rename_i hx
    split at hx
    · rename_i hcond
      obtain ⟨-, -, hend⟩ := hcond
      cases st
      · refine ⟨rfl, ?_⟩; intro hn; rw [hn] at hend; simp [mayEnd] at hend
      · unfold mayEnd at hend; simp [hdl] at hend
    · cases hx

/-- Non-vacuity: two waiters, one `notify_one`: exactly one returns. -/
example : ∃ s tr, Reach (step nz) init s tr ∧ wokenReturns 1 tr = 1 ∧ notifications 1 tr = 1 ∧
    wokenReturns 2 tr = 0 :=
  ⟨_, _, reach_of_exec (es := [.lock 1, .run 1, .call 1 .wait, .run 1, .run 1, .run 1,
    .lock 2, .run 2, .call 2 .wait, .run 2, .run 2, .run 2, .notifyOne 3, .run 3, .run 1, .run 1]) rfl,
    rfl, rfl, rfl⟩

/-! ## C11: the lock -/

/-- **C11.** Whenever a wait, with or without predicate, timed or not, returns to its caller, the caller owns the
lock. -/
theorem lock_held_on_return {P : Fid → Nat → Bool} {s s' : State} {tr o : List Obs} {e : Event} {f : Fid} {r : Res}
    (h : Reach (step P) init s tr) (hs : step P s e = some (s', o)) (hm : Obs.done f r ∈ o) :
    s'.mtx = some f := by
  have hl := (reach_inv h).hl
  cases e with
  | run g =>
    have hl := hl g
    simp only [step, run] at hs
    split at hs
    case h_3 => (repeat' split at hs) <;> grind [hasLock]
    case h_4 => grind [hasLock]
    case h_10 =>
      rename_i op st hp
      split at hs <;> simp only [Option.some.injEq, Prod.mk.injEq, reduceCtorEq] at hs
      obtain ⟨rfl, rfl⟩ := hs
      simp only [List.mem_cons, reduceCtorEq, false_or, afterWait] at hm
      cases op <;> simp at hm
      · exact congrArg some hm.1.symm
      · exact congrArg some hm.1.symm
      · split at hm <;> simp at hm
    all_goals grind
  | _ => simp only [step] at hs; grind

/-- **C11.** While a fiber is suspended in a wait, and until it has got the lock back, it does not own it. -/
theorem lock_released_while_waiting {P : Fid → Nat → Bool} {s : State} {tr : List Obs} {f : Fid}
    (h : Reach (step P) init s tr) (hp : (∃ op ep, s.pc f = .waiting op ep ∨ s.pc f = .unlink op ep) ∨
      (∃ op st, s.pc f = .relock op st)) : s.mtx ≠ some f := by
  apply (reach_inv h).nl
  rcases hp with ⟨op, ep, hp | hp⟩ | ⟨op, st, hp⟩ <;> simp [hp, noLock]

/-! ## C12: predicates -/

/-- **C12.** A predicate overload returns only in the very step in which it evaluated the predicate, on the
current data, while holding the lock; it returns that value; `wait(lk, pred)` only `true`, and
`wait_until(lk, d, pred)` returns `false` only when `d` has been reached. -/
theorem pred_return {P : Fid → Nat → Bool} {s s' : State} {tr o : List Obs} {e : Event} {f : Fid} {r : Res}
    {op : Op} {sp : Spec} (h : Reach (step P) init s tr) (hs : step P s e = some (s', o)) (hm : Obs.done f r ∈ o)
    (hsp : Spec.init.run P tr = some sp) (hc : sp.call f = some op) (hop : op.hasPred = true) :
    o = [.evaled f (P f s.data), .done f r] ∧ s.mtx = some f ∧ s'.data = s.data ∧
    ((op = .waitPred ∧ r = .void ∧ P f s.data = true) ∨
     (∃ d, op = .untilPred d ∧ r = .bool (P f s.data) ∧ (P f s.data = false → d ≤ s.now))) := by
  obtain ⟨sp', h1, m⟩ := refine_sim h
  rw [hsp] at h1; cases h1
  have hl := (reach_inv h).hl
  have hcf := m.call f
  rw [hc] at hcf
  cases e with
  | run g =>
    simp only [step, run] at hs
    split at hs
    case h_3 =>
      rename_i op' hp
      have hpr := m.pred g op' hp
      split at hs <;> simp only [Option.some.injEq, Prod.mk.injEq] at hs <;> obtain ⟨rfl, rfl⟩ := hs <;>
        simp only [List.mem_cons, reduceCtorEq, false_or, List.not_mem_nil, or_false, Obs.done.injEq] at hm
      obtain ⟨rfl, rfl⟩ := hm
      rename_i hP
      simp only [hp, callOf, Option.some.injEq] at hcf; subst hcf
      refine ⟨by simp [hP], hl f (by simp [hp, hasLock]), rfl, ?_⟩
      cases op <;> simp [Op.hasPred, predRes, hP] at hop ⊢
    case h_4 =>
      rename_i op' hp
      obtain ⟨-, d, rfl, hd⟩ := m.lastT g op' hp
      simp only [Option.some.injEq, Prod.mk.injEq] at hs; obtain ⟨rfl, rfl⟩ := hs
      simp only [List.mem_cons, reduceCtorEq, false_or, List.not_mem_nil, or_false, Obs.done.injEq] at hm
      obtain ⟨rfl, rfl⟩ := hm
      simp only [hp, callOf, Option.some.injEq] at hcf; subst hcf
      exact ⟨by simp, hl f (by simp [hp, hasLock]), rfl, Or.inr ⟨d, rfl, rfl, fun _ => hd⟩⟩
    case h_10 =>
      rename_i op' st hp
      split at hs <;> simp only [Option.some.injEq, Prod.mk.injEq, reduceCtorEq] at hs
      obtain ⟨rfl, rfl⟩ := hs
      exfalso
      simp only [List.mem_cons, reduceCtorEq, false_or, afterWait] at hm
      by_cases hgf : f = g
      · subst hgf; simp only [hp, callOf, Option.some.injEq] at hcf; subst hcf
        cases op <;> simp [Op.hasPred] at hop hm
        split at hm <;> simp at hm
      · cases op' <;> simp [hgf] at hm
        split at hm <;> simp at hm
    all_goals grind
  | _ => simp only [step] at hs; grind

/-- Non-vacuity: `wait_until(lk, 5, pred)` whose predicate is still false at the deadline returns false. -/
example : ∃ s tr, Reach (step nz) init s tr ∧ Obs.done 1 (.bool false) ∈ tr ∧
    Obs.waitRet 1 .timeout 6 ∈ tr := by
  refine ⟨_, _, reach_of_exec (es := [.lock 1, .run 1, .call 1 (.untilPred 5), .run 1, .run 1, .run 1, .run 1,
    .tick 6, .timer 1, .run 1, .run 1, .run 1, .run 1]) rfl, by decide, by decide⟩

/-! ## C13: timed waits -/

/-- **C13.** A timed wait reports `no_timeout` only if a notification released the fiber before the deadline, and
`timeout` only if the deadline has been reached. -/
theorem timed_status {P : Fid → Nat → Bool} {s s' : State} {tr o : List Obs} {e : Event} {f : Fid} {st : Status}
    {t d : Nat} {op : Op} {sp : Spec} (h : Reach (step P) init s tr) (hs : step P s e = some (s', o))
    (hm : Obs.waitRet f st t ∈ o) (hsp : Spec.init.run P tr = some sp) (hc : sp.call f = some op)
    (hd : op.dl = some d) :
    t = s.now ∧ (st = .noTimeout → ∃ t0, sp.notif f = some t0 ∧ t0 < d) ∧ (st = .timeout → d ≤ t) := by
  obtain ⟨sp', h1, m⟩ := refine_sim h
  rw [hsp] at h1; cases h1
  have hcf := m.call f
  rw [hc] at hcf
  cases e with
  | run g =>
    simp only [step, run] at hs
    split at hs
    case h_10 =>
      rename_i op' st' hp
      split at hs <;> simp only [Option.some.injEq, Prod.mk.injEq, reduceCtorEq] at hs
      obtain ⟨rfl, rfl⟩ := hs
      simp only [List.mem_cons, Obs.waitRet.injEq] at hm
      rcases hm with ⟨rfl, rfl, rfl⟩ | hm
      · simp only [hp, callOf, Option.some.injEq] at hcf; subst hcf
        refine ⟨rfl, ?_, ?_⟩
        · rintro rfl
          obtain ⟨t, h1, h2⟩ := m.rel f op hp
          exact ⟨t, h1, h2 d hd⟩
        · rintro rfl
          obtain ⟨d', h1, h2⟩ := m.relT f op hp
          rw [hd] at h1; cases h1; exact h2
      · exfalso; revert hm; unfold afterWait; cases op' <;> simp <;> split <;> simp
    all_goals grind
  | _ => simp only [step] at hs; grind

/-- **C13, documented converse, is false of the code.** Fiber 1 waits until 5; `notify_one` releases it at time 0;
it is resumed only at time 5 and reports `timeout`. -/
theorem notified_but_timeout :
    ∃ s tr, Reach (step nz) init s tr ∧ Obs.notifiedOne 2 (some 1) 0 ∈ tr ∧
      Obs.done 1 (.status .timeout) ∈ tr ∧ (∀ t, Obs.expired 1 t ∉ tr) := by
  refine ⟨_, [.locked 1, .called 1 (.until 5), .released 1, .notifiedOne 2 (some 1) 0, .waitRet 1 .timeout 5,
      .done 1 (.status .timeout)],
    reach_of_exec (es := [.lock 1, .run 1, .call 1 (.until 5), .run 1, .run 1, .run 1,
      .notifyOne 2, .run 2, .tick 5, .run 1, .run 1, .run 1]) rfl, by decide, by decide, ?_⟩
  intro t; simp

/-- **C13, converse, what holds.** A notified fiber that is resumed before its deadline reports `no_timeout`.

Missing: notified fibers resumed at or after the deadline (`notified_but_timeout`). -/
theorem notified_in_time_partial {P : Fid → Nat → Bool} {s : State} {f : Fid} {op : Op}
    {ep : Nat} (hp : s.pc f = .waiting op ep) (hr : s.c.ready f = true) (hd : ∀ d, op.dl = some d → s.now < d) :
    ∃ s1, step P s (.run f) = some (s1, []) ∧ s1.pc f = .relock op .noTimeout ∧
      (∀ s2 o, step P { s1 with mtx := none } (.run f) = some (s2, o) →
        Obs.waitRet f .noTimeout s.now ∈ o) := by
  simp only [step, run, hp, hr, if_true]
  cases hdl : op.dl with
  | none =>
    refine ⟨_, rfl, by simp, ?_⟩
    intro s2 o h; simp only [upd_same, if_true, Option.some.injEq, Prod.mk.injEq] at h
    rw [← h.2]; simp
  | some d =>
    simp only [hd d hdl, if_true]
    refine ⟨_, rfl, by simp, ?_⟩
    intro s2 o h; simp only [upd_same, if_true, Option.some.injEq, Prod.mk.injEq] at h
    rw [← h.2]; simp

end Verif.CondVar
