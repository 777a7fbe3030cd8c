import Verif.FiberInv

/-!
# Fibers and handles: specification

What a user may observe, as a sequence of calls, returns and fiber events. `Spec.ok sp x`: the observation `x` is
allowed after the history summarised by `sp`. `Spec.after` is the effect of an observation, computed from the
interface alone (it knows nothing about counters, queues or wakers).
-/

namespace Verif.Fib

structure Spec where
  obj     : Hid → Option (Option Fid)           -- the handles that exist and the fiber they refer to
  pend    : Fid → Option (Op × Option Fid)      -- the call a fiber is in
  ret     : Fid → Bool                          -- its function has returned
  over    : Fid → Bool                          -- it has terminated
  left    : Fid → Bool                          -- it has left its stack
  freed   : Fid → Bool                          -- its memory has been freed
  aborted : Bool

def Spec.init : Spec :=
  { obj := fun _ => none, pend := fun _ => none, ret := fun _ => false, over := fun _ => false, left := fun _ => false,
    freed := fun _ => false, aborted := false }

/-- The effect of a call that succeeded on the handles. -/
def apply (obj : Hid → Option (Option Fid)) : Op → Hid → Option (Option Fid)
  | .spawn h g => upd obj h (some (some g))
  | .mkEmpty h => upd obj h (some none)
  | .move h h' => upd (upd obj h' (obj h)) h (some none)
  | .moveAssign h h' => fun k => if h = h' then obj k else if k = h then some none else if k = h' then obj h else obj k
  | .swap h h' => upd (upd obj h (obj h')) h' (obj h)
  | .destroy h => upd obj h none
  | .join h | .detach h => upd obj h (some none)
  | .joinable _ => obj

/-- The handle a call looks at. -/
def Op.subject : Op → Hid
  | .spawn h _ | .mkEmpty h | .move h _ | .swap h _ | .destroy h | .join h | .detach h | .joinable h => h
  | .moveAssign _ h' => h'

/-- The fiber a call is about. -/
def Spec.about (sp : Spec) (op : Op) (x : Option Fid) : Prop :=
  match op with
  | .spawn h g => sp.obj h = none ∧ x = some g
  | .mkEmpty h => sp.obj h = none ∧ x = none
  | op => sp.obj op.subject = some x

/-- The results a call may have. -/
def Spec.allowed (sp : Spec) (f : Fid) (op : Op) (x : Option Fid) (r : Res) : Prop :=
  match op with
  | .spawn _ _ | .mkEmpty _ | .move _ _ | .swap _ _ => r = .ok
  | .moveAssign _ _ | .destroy _ => x = none ∧ r = .ok
  | .join _ =>
    match x with
    | none => r = .invalid
    | some g => if g = f then r = .deadlock else r = .ok ∧ sp.over g = true
  | .detach _ => r = if x = none then .invalid else .ok
  | .joinable _ => r = .bool x.isSome

def Spec.after (sp : Spec) : Obs → Spec
  | .called f op x => { sp with pend := upd sp.pend f (some (op, x)) }
  | .ret f op _ r => { sp with pend := upd sp.pend f none, obj := if r = .ok then apply sp.obj op else sp.obj }
  | .returned f => { sp with ret := upd sp.ret f true }
  | .terminated f _ => { sp with over := upd sp.over f true }
  | .left f => { sp with left := upd sp.left f true }
  | .freed f => { sp with freed := upd sp.freed f true }
  | .abort _ _ => { sp with aborted := true }
  | .ub _ => sp

def Spec.ok (sp : Spec) (x : Obs) : Prop :=
  sp.aborted = false ∧
  match x with
  | .called f op x => sp.pend f = none ∧ sp.about op x
  | .ret f op x r => sp.pend f = some (op, x) ∧ sp.allowed f op x r
  | .returned f => sp.ret f = false ∧ sp.pend f = none
  | .terminated f ws =>
    sp.ret f = true ∧ sp.over f = false ∧ ws.Nodup ∧ ∀ g, g ∈ ws ↔ ∃ h, sp.pend g = some (.join h, some f)
  | .left f => sp.over f = true ∧ sp.left f = false
  | .freed f => sp.left f = true ∧ sp.freed f = false ∧ ∀ h, sp.obj h ≠ some (some f)
  | .abort f op => ∃ g, sp.pend f = some (op, some g) ∧ ((∃ h, op = .destroy h) ∨ ∃ h h', op = .moveAssign h h')
  | .ub _ => False

def replay (tr : List Obs) : Spec := tr.foldl Spec.after Spec.init

/-- The handles of the program and the fiber each refers to. -/
def handles (tr : List Obs) : Hid → Option (Option Fid) := (replay tr).obj

/-- The call a fiber is in. -/
def inCall (tr : List Obs) : Fid → Option (Op × Option Fid) := (replay tr).pend

/-- All observations are allowed. -/
def Runs : Spec → List Obs → Prop
  | _, [] => True
  | sp, x :: l => sp.ok x ∧ Runs (sp.after x) l

theorem Runs.append {sp : Spec} {a b : List Obs} (h1 : Runs sp a) (h2 : Runs (a.foldl Spec.after sp) b) : Runs sp (a ++ b) := by
  induction a generalizing sp with
  | nil => exact h2
  | cons x l ih => exact ⟨h1.1, ih h1.2 h2⟩

theorem Runs.split {sp : Spec} {a b : List Obs} {x : Obs} (h : Runs sp (a ++ x :: b)) : (a.foldl Spec.after sp).ok x := by
  induction a generalizing sp with
  | nil => exact h.1
  | cons y l ih => exact ih h.2

theorem replay_append (a b : List Obs) : replay (a ++ b) = b.foldl Spec.after (replay a) := List.foldl_append

/-- What the specification remembers is what happened. -/
theorem replay_ret (tr : List Obs) (g : Fid) : (replay tr).ret g = true ↔ .returned g ∈ tr := by
  suffices h : ∀ sp : Spec, (tr.foldl Spec.after sp).ret g = true ↔ sp.ret g = true ∨ .returned g ∈ tr by
    rw [replay, h]; simp [Spec.init]
  induction tr with
  | nil => simp
  | cons x l ih =>
    intro sp
    rw [List.foldl_cons, ih, List.mem_cons]
    cases x <;> simp only [Spec.after, upd_apply, reduceCtorEq, false_or, Obs.returned.injEq]
    split <;> simp_all

theorem replay_over (tr : List Obs) (g : Fid) : (replay tr).over g = true ↔ ∃ ws, .terminated g ws ∈ tr := by
  suffices h : ∀ sp : Spec, (tr.foldl Spec.after sp).over g = true ↔ sp.over g = true ∨ ∃ ws, .terminated g ws ∈ tr by
    rw [replay, h]; simp [Spec.init]
  induction tr with
  | nil => simp
  | cons x l ih =>
    intro sp
    rw [List.foldl_cons, ih]
    cases x <;> simp only [Spec.after, upd_apply, reduceCtorEq, false_or, List.mem_cons, Obs.terminated.injEq]
    split
    · subst_vars; simp
    · simp_all

theorem replay_left (tr : List Obs) (g : Fid) : (replay tr).left g = true ↔ .left g ∈ tr := by
  suffices h : ∀ sp : Spec, (tr.foldl Spec.after sp).left g = true ↔ sp.left g = true ∨ .left g ∈ tr by
    rw [replay, h]; simp [Spec.init]
  induction tr with
  | nil => simp
  | cons x l ih =>
    intro sp
    rw [List.foldl_cons, ih, List.mem_cons]
    cases x <;> simp only [Spec.after, upd_apply, reduceCtorEq, false_or, Obs.left.injEq]
    split <;> simp_all

theorem replay_freed (tr : List Obs) (g : Fid) : (replay tr).freed g = true ↔ .freed g ∈ tr := by
  suffices h : ∀ sp : Spec, (tr.foldl Spec.after sp).freed g = true ↔ sp.freed g = true ∨ .freed g ∈ tr by
    rw [replay, h]; simp [Spec.init]
  induction tr with
  | nil => simp
  | cons x l ih =>
    intro sp
    rw [List.foldl_cons, ih, List.mem_cons]
    cases x <;> simp only [Spec.after, upd_apply, reduceCtorEq, false_or, Obs.freed.injEq]
    split <;> simp_all

theorem replay_aborted (tr : List Obs) : (replay tr).aborted = true ↔ ∃ f op, .abort f op ∈ tr := by
  suffices h : ∀ sp : Spec, (tr.foldl Spec.after sp).aborted = true ↔ sp.aborted = true ∨ ∃ f op, .abort f op ∈ tr by
    rw [replay, h]; simp [Spec.init]
  induction tr with
  | nil => simp
  | cons x l ih =>
    intro sp
    rw [List.foldl_cons, ih]
    cases x <;> simp only [Spec.after, reduceCtorEq, false_or, List.mem_cons, Obs.abort.injEq]
    simp; exact .inr ⟨_, _, .inl ⟨rfl, rfl⟩⟩

/-! ## The machine follows the specification -/

def pendOf : Pc → Option (Op × Option Fid)
  | .waiting h g _ | .joined h g => some (.join h, some g)
  | _ => none

def Pc.done : Pc → Bool
  | .ending | .leaving | .gone | .reaped => true
  | _ => false

structure Sim (s : State) (sp : Spec) : Prop where
  obj   : sp.obj = s.hd
  pend  : s.aborted = false → ∀ f, sp.pend f = pendOf (s.pc f)
  ret   : ∀ f, sp.ret f = (s.pc f).done
  over  : ∀ f, sp.over f = (s.pc f).over
  left  : ∀ f, sp.left f = (s.pc f).off
  freed : ∀ f, sp.freed f = (decide (s.pc f ≠ .unborn) && !s.live f)
  abo   : sp.aborted = s.aborted

theorem sim_init : Sim init Spec.init := by
  constructor <;> simp [init, Spec.init, pendOf, Pc.done, Pc.over, Pc.off]

/-- A call that is over at once, and that leaves all fibers where they are. -/
theorem sim_ret {s s' : State} {sp : Spec} {f : Fid} {op : Op} {x : Option Fid} {r : Res} (h : Sim s sp) (ha : s.aborted = false)
    (hp : s.pc f = .idle) (h1 : sp.about op x) (h2 : sp.allowed f op x r)
    (e1 : s'.hd = if r = .ok then apply sp.obj op else sp.obj) (e2 : s'.pc = s.pc) (e3 : s'.live = s.live) (e4 : s'.aborted = s.aborted) :
    Runs sp [.called f op x, .ret f op x r] ∧ Sim s' ([.called f op x, .ret f op x r].foldl Spec.after sp) := by
  obtain ⟨obj, pend, hret, over, left, freed, abo⟩ := h
  refine ⟨⟨⟨by rw [abo, ha], ?_, h1⟩, ⟨by simp [Spec.after, abo, ha], by simp [Spec.after], ?_⟩, trivial⟩, ?_⟩
  · rw [pend ha, hp]; rfl
  · cases op <;> exact h2
  · constructor
    · simp only [List.foldl_cons, List.foldl_nil, Spec.after]; exact e1.symm
    · intro _ g
      simp only [List.foldl_cons, List.foldl_nil, Spec.after, upd_apply]
      split
      · subst_vars; rw [e2, hp]; rfl
      · rw [e2]; exact pend ha g
    · simpa [Spec.after, e2] using hret
    · simpa [Spec.after, e2] using over
    · simpa [Spec.after, e2] using left
    · simpa [Spec.after, e2, e3] using freed
    · simpa [Spec.after, e4] using abo

theorem sim_abort {s : State} {sp : Spec} {f : Fid} {op : Op} {g : Fid} (h : Sim s sp) (ha : s.aborted = false)
    (hp : s.pc f = .idle) (h1 : sp.about op (some g)) (h2 : (∃ h, op = .destroy h) ∨ ∃ h h', op = .moveAssign h h') :
    Runs sp [.called f op (some g), .abort f op] ∧
      Sim { s with aborted := true } ([.called f op (some g), .abort f op].foldl Spec.after sp) := by
  obtain ⟨obj, pend, hret, over, left, freed, abo⟩ := h
  refine ⟨⟨⟨by rw [abo, ha], ?_, h1⟩, ⟨by simp [Spec.after, abo, ha], g, by simp [Spec.after], h2⟩, trivial⟩, ?_⟩
  · rw [pend ha, hp]; rfl
  · constructor
    · exact obj
    · simp
    · exact hret
    · exact over
    · exact left
    · exact freed
    · rfl

theorem sim_begin {s s' : State} {sp : Spec} {f : Fid} {op : Op} {x : Option Fid} {p : Pc} (h : Sim s sp) (ha : s.aborted = false)
    (hp : s.pc f = .idle) (h1 : sp.about op x) (h2 : pendOf p = some (op, x))
    (e1 : s'.hd = s.hd) (e2 : s'.pc = upd s.pc f p) (e3 : s'.live = s.live) (e4 : s'.aborted = s.aborted) :
    Runs sp [.called f op x] ∧ Sim s' ([.called f op x].foldl Spec.after sp) := by
  obtain ⟨obj, pend, hret, over, left, freed, abo⟩ := h
  have hd : p.done = false ∧ p.over = false ∧ p.off = false ∧ p ≠ .unborn := by
    cases p <;> simp [pendOf, Pc.done, Pc.over, Pc.off] at h2 ⊢
  refine ⟨⟨⟨by rw [abo, ha], ?_, h1⟩, trivial⟩, ?_⟩
  · rw [pend ha, hp]; rfl
  · constructor
    · simp only [List.foldl_cons, List.foldl_nil, Spec.after]; rw [obj, e1]
    · intro _ g
      simp only [List.foldl_cons, List.foldl_nil, Spec.after, e2, upd_apply]
      split
      · exact h2.symm
      · exact pend ha g
    · intro g
      simp only [List.foldl_cons, List.foldl_nil, Spec.after, e2, upd_apply]
      split
      · subst_vars; rw [hret, hp, hd.1]; rfl
      · exact hret g
    · intro g
      simp only [List.foldl_cons, List.foldl_nil, Spec.after, e2, upd_apply]
      split
      · subst_vars; rw [over, hp, hd.2.1]; rfl
      · exact over g
    · intro g
      simp only [List.foldl_cons, List.foldl_nil, Spec.after, e2, upd_apply]
      split
      · subst_vars; rw [left, hp, hd.2.2.1]; rfl
      · exact left g
    · intro g
      simp only [List.foldl_cons, List.foldl_nil, Spec.after, e2, e3, upd_apply]
      split
      · subst_vars; rw [freed, hp]; simp [hd.2.2.2]
      · exact freed g
    · simpa [Spec.after, e4] using abo

/-- Dropping a reference: the memory goes exactly when the fiber is off its stack and nobody refers to it. -/
theorem sim_drop {s : State} {sp : Spec} {g : Fid} (h : Sim s sp) (ha : s.aborted = false) (hu : s.pc g ≠ .unborn)
    (hl : s.live g = true) (ho : s.refs g = 1 → (s.pc g).off = true ∧ ∀ h, s.hd h ≠ some (some g)) :
    Runs sp (release s g).2 ∧ Sim (release s g).1 ((release s g).2.foldl Spec.after sp) := by
  rw [release_eq hl (fun e => (ho e).1)]
  obtain ⟨obj, pend, hret, over, left, freed, abo⟩ := h
  by_cases h1 : s.refs g = 1
  · simp only [h1, if_true]
    obtain ⟨h2, h3⟩ := ho h1
    refine ⟨⟨⟨by rw [abo, ha], by rw [left, h2], by rw [freed, hl]; simp, ?_⟩, trivial⟩, ?_⟩
    · intro k; rw [obj]; exact h3 k
    · refine ⟨obj, pend, hret, over, left, ?_, abo⟩
      intro k
      simp only [List.foldl_cons, List.foldl_nil, Spec.after, upd_apply]
      split
      · subst_vars; simp [hu]
      · exact freed k
  · simp only [h1, if_false]
    refine ⟨trivial, obj, pend, hret, over, left, ?_, abo⟩
    intro k
    simp only [List.foldl_nil, upd_apply]
    split
    · subst_vars; rw [freed, hl]; simp [h1]
    · exact freed k

theorem sim_call {s s' : State} {sp : Spec} {f : Fid} {op : Op} {o : List Obs} (hc : Core s) (h : Sim s sp) (ha : s.aborted = false)
    (hp : s.pc f = .idle) (hs : call s f op = some (s', o)) : Runs sp o ∧ Sim s' (o.foldl Spec.after sp) := by
  have hobj := h.obj
  cases op with
  | spawn k g =>
    simp only [call] at hs
    split at hs <;> try (simp only [reduceCtorEq] at hs; done)
    rename_i hg
    simp only [ret, Option.some.injEq, Prod.mk.injEq] at hs
    obtain ⟨rfl, rfl⟩ := hs
    have hr := sim_ret (s' := { s with hd := upd s.hd k (some (some g)) }) (op := .spawn k g) (x := some g) (r := .ok) h ha hp
      ⟨by rw [hobj]; exact hg.1, rfl⟩ rfl (by simp [apply, hobj]) rfl rfl rfl
    refine ⟨hr.1, ?_⟩
    obtain ⟨obj, pend, hret, over, left, freed, abo⟩ := hr.2
    refine ⟨obj, ?_, ?_, ?_, ?_, ?_, abo⟩
    · intro hA k'
      rw [pend hA]; simp only [upd_apply]; split
      · subst_vars; rw [hg.2]; rfl
      · rfl
    · intro k'
      rw [hret]; simp only [upd_apply]; split
      · subst_vars; rw [hg.2]; rfl
      · rfl
    · intro k'
      rw [over]; simp only [upd_apply]; split
      · subst_vars; rw [hg.2]; rfl
      · rfl
    · intro k'
      rw [left]; simp only [upd_apply]; split
      · subst_vars; rw [hg.2]; rfl
      · rfl
    · intro k'
      rw [freed]; simp only [upd_apply]; split
      · subst_vars; rw [hg.2]; rfl
      · rfl
  | mkEmpty k =>
    simp only [call] at hs
    split at hs <;> try (simp only [reduceCtorEq] at hs; done)
    rename_i hg
    simp only [ret, Option.some.injEq, Prod.mk.injEq] at hs
    obtain ⟨rfl, rfl⟩ := hs
    exact sim_ret h ha hp ⟨by rw [hobj]; exact hg, rfl⟩ rfl (by simp [apply, hobj]) rfl rfl rfl
  | move k k' =>
    simp only [call] at hs
    split at hs <;> try (simp only [reduceCtorEq] at hs; done)
    rename_i x hx
    split at hs <;> try (simp only [reduceCtorEq] at hs; done)
    simp only [ret, Option.some.injEq, Prod.mk.injEq] at hs
    obtain ⟨rfl, rfl⟩ := hs
    exact sim_ret h ha hp (by simp only [Spec.about, Op.subject, hobj]; exact hx) rfl (by simp [apply, hobj, hx]) rfl rfl rfl
  | moveAssign k k' =>
    simp only [call] at hs
    split at hs <;> try (simp only [reduceCtorEq] at hs; done)
    rename_i x y hx hy
    split at hs <;> try (simp only [reduceCtorEq] at hs; done)
    split at hs
    · rename_i hys
      obtain ⟨g, rfl⟩ := Option.isSome_iff_exists.1 hys
      simp only [abort, Option.some.injEq, Prod.mk.injEq] at hs
      obtain ⟨rfl, rfl⟩ := hs
      exact sim_abort h ha hp (by simp only [Spec.about, Op.subject, hobj]; exact hy) (.inr ⟨_, _, rfl⟩)
    · rename_i hys
      have : y = none := by simpa using hys
      subst this
      split at hs
      · rename_i hkk
        simp only [ret, Option.some.injEq, Prod.mk.injEq] at hs
        obtain ⟨rfl, rfl⟩ := hs
        refine sim_ret h ha hp (by simp only [Spec.about, Op.subject, hobj]; exact hy) ⟨rfl, rfl⟩ ?_ rfl rfl rfl
        rw [if_pos rfl]; funext j; simp [apply, hobj, hkk]
      · rename_i hkk
        simp only [ret, Option.some.injEq, Prod.mk.injEq] at hs
        obtain ⟨rfl, rfl⟩ := hs
        refine sim_ret h ha hp (by simp only [Spec.about, Op.subject, hobj]; exact hy) ⟨rfl, rfl⟩ ?_ rfl rfl rfl
        rw [if_pos rfl]; funext j; simp [apply, hobj, hkk, upd_apply, hx]
  | swap k k' =>
    simp only [call] at hs
    split at hs <;> try (simp only [reduceCtorEq] at hs; done)
    rename_i x y hx hy
    split at hs <;> try (simp only [reduceCtorEq] at hs; done)
    simp only [ret, Option.some.injEq, Prod.mk.injEq] at hs
    obtain ⟨rfl, rfl⟩ := hs
    refine sim_ret h ha hp (by simp only [Spec.about, Op.subject, hobj]; exact hx) rfl ?_ rfl rfl rfl
    rw [if_pos rfl]; funext j; simp only [apply, hobj, upd_apply]; grind
  | destroy k =>
    simp only [call] at hs
    split at hs <;> try (simp only [reduceCtorEq] at hs; done)
    rename_i x hx
    split at hs <;> try (simp only [reduceCtorEq] at hs; done)
    split at hs
    · rename_i hys
      obtain ⟨g, rfl⟩ := Option.isSome_iff_exists.1 hys
      simp only [abort, Option.some.injEq, Prod.mk.injEq] at hs
      obtain ⟨rfl, rfl⟩ := hs
      exact sim_abort h ha hp (by simp only [Spec.about, Op.subject, hobj]; exact hx) (.inl ⟨_, rfl⟩)
    · rename_i hys
      have : x = none := by simpa using hys
      subst this
      simp only [ret, Option.some.injEq, Prod.mk.injEq] at hs
      obtain ⟨rfl, rfl⟩ := hs
      exact sim_ret h ha hp (by simp only [Spec.about, Op.subject, hobj]; exact hx) ⟨rfl, rfl⟩ (by simp [apply, hobj]) rfl rfl rfl
  | joinable k =>
    simp only [call] at hs
    split at hs <;> try (simp only [reduceCtorEq] at hs; done)
    rename_i x hx
    simp only [ret, Option.some.injEq, Prod.mk.injEq] at hs
    obtain ⟨rfl, rfl⟩ := hs
    exact sim_ret h ha hp (by simp only [Spec.about, Op.subject, hobj]; exact hx) rfl (by simp [hobj]) rfl rfl rfl
  | join k =>
    simp only [call] at hs
    split at hs <;> try (simp only [reduceCtorEq] at hs; done)
    · rename_i hx
      simp only [ret, Option.some.injEq, Prod.mk.injEq] at hs
      obtain ⟨rfl, rfl⟩ := hs
      exact sim_ret h ha hp (by simp only [Spec.about, Op.subject, hobj]; exact hx) rfl (by simp [hobj]) rfl rfl rfl
    · rename_i g hx
      have hab : sp.about (.join k) (some g) := by simp only [Spec.about, Op.subject, hobj]; exact hx
      split at hs
      · simp only [ret, Option.some.injEq, Prod.mk.injEq] at hs
        obtain ⟨rfl, rfl⟩ := hs
        exact sim_ret h ha hp hab (by subst_vars; simp [Spec.allowed]) (by simp [hobj]) rfl rfl rfl
      · have hlive : s.live g = true := (hc.liv g).2 (by rw [hc.held k g hx]; omega)
        rw [if_pos hlive] at hs
        split at hs
        all_goals
          simp only [Option.some.injEq, Prod.mk.injEq] at hs
          obtain ⟨rfl, rfl⟩ := hs
          exact sim_begin h ha hp hab rfl rfl rfl rfl rfl
  | detach k =>
    simp only [call] at hs
    split at hs <;> try (simp only [reduceCtorEq] at hs; done)
    · rename_i hx
      simp only [ret, Option.some.injEq, Prod.mk.injEq] at hs
      obtain ⟨rfl, rfl⟩ := hs
      exact sim_ret h ha hp (by simp only [Spec.about, Op.subject, hobj]; exact hx) rfl (by simp [hobj]) rfl rfl rfl
    · rename_i g hx
      split at hs <;> try (simp only [reduceCtorEq] at hs; done)
      rename_i hu
      have hr := hc.held k g hx
      simp only [ret, Option.some.injEq, Prod.mk.injEq] at hs
      obtain ⟨rfl, rfl⟩ := hs
      have h1 := sim_ret (s' := { s with hd := upd s.hd k (some none) }) (op := .detach k) (x := some g) (r := .ok) h ha hp
        (by simp only [Spec.about, Op.subject, hobj]; exact hx) (by simp [Spec.allowed]) (by simp [apply, hobj]) rfl rfl rfl
      have h2 := sim_drop (g := g) h1.2 ha (hc.hold k g hx).1 ((hc.liv g).2 (by omega)) ?_
      · exact ⟨Runs.append h1.1 h2.1, h2.2⟩
      · intro e
        simp only at e ⊢
        have : own (s.pc g) = 0 := by omega
        rw [own_pos.1 this]
        refine ⟨rfl, ?_⟩
        intro j; simp only [upd_apply]; split
        · simp
        · rename_i hj; exact fun hj' => hj (hc.uniq _ _ _ hj' hx)

theorem sim_step {s s' : State} {sp : Spec} {e : Event} {o : List Obs} (hc : Core s) (hw : WI s) (h : Sim s sp)
    (hs : step s e = some (s', o)) : Runs sp o ∧ Sim s' (o.foldl Spec.after sp) := by
  simp only [step] at hs
  split at hs <;> try (simp only [reduceCtorEq] at hs; done)
  rename_i ha
  have ha : s.aborted = false := by simpa using ha
  cases e with
  | thread f =>
    simp only at hs
    split at hs <;> try (simp only [reduceCtorEq] at hs; done)
    rename_i hp
    simp only [Option.some.injEq, Prod.mk.injEq] at hs
    obtain ⟨rfl, rfl⟩ := hs
    obtain ⟨obj, pend, hret, over, left, freed, abo⟩ := h
    refine ⟨trivial, obj, fun hA g => ?_, fun g => ?_, fun g => ?_, fun g => ?_, fun g => ?_, abo⟩
    all_goals simp only [List.foldl_nil, pend ha, hret, over, left, freed, upd_apply]
    all_goals
      split
      · subst_vars; rw [hp]; rfl
      · rfl
  | call f op =>
    simp only at hs
    split at hs <;> try (simp only [reduceCtorEq] at hs; done)
    rename_i hp
    exact sim_call hc h ha hp hs
  | finish f =>
    simp only at hs
    split at hs <;> try (simp only [reduceCtorEq] at hs; done)
    rename_i hp
    simp only [Option.some.injEq, Prod.mk.injEq] at hs
    obtain ⟨rfl, rfl⟩ := hs
    obtain ⟨obj, pend, hret, over, left, freed, abo⟩ := h
    refine ⟨⟨⟨by rw [abo, ha], by rw [hret, hp.1]; rfl, by rw [pend ha, hp.1]; rfl⟩, trivial⟩, obj, fun hA g => ?_, fun g => ?_, fun g => ?_, fun g => ?_, fun g => ?_, abo⟩
    all_goals simp only [List.foldl_cons, List.foldl_nil, Spec.after, pend ha, hret, over, left, freed, upd_apply]
    all_goals
      split
      · subst_vars; try rw [hp.1]
        first | rfl | simp
      · rfl
  | reap f =>
    simp only at hs
    split at hs <;> try (simp only [reduceCtorEq] at hs; done)
    rename_i hp
    have hmn : s.main f = false := by
      cases hm : s.main f with
      | false => rfl
      | true => have := (hc.mn f hm).2.2.2; rw [hc.trm, hp] at this; simp [Pc.over] at this
    have hlive : 0 < s.refs f := by
      by_cases hh : ∃ k, s.hd k = some (some f)
      · obtain ⟨k, hk⟩ := hh; rw [hc.held k f hk]; omega
      · rw [hc.free f (by simp [hp]) hmn (fun k hk => hh ⟨k, hk⟩), hp]; decide
    simp only [Option.some.injEq] at hs
    have h1 : Sim { s with pc := upd s.pc f .reaped } sp := by
      obtain ⟨obj, pend, hret, over, left, freed, abo⟩ := h
      refine ⟨obj, fun hA g => ?_, fun g => ?_, fun g => ?_, fun g => ?_, fun g => ?_, abo⟩
      all_goals simp only [pend ha, hret, over, left, freed, upd_apply]
      all_goals
        split
        · subst_vars; try rw [hp]
          first | rfl | simp
        · rfl
    have h2 := sim_drop (g := f) h1 ha (by simp) ((hc.liv f).2 hlive) ?_
    · rw [hs] at h2; exact h2
    · intro e
      refine ⟨by simp only [upd_same]; rfl, ?_⟩
      intro k hk
      have := hc.held k f hk
      simp only at e
      rw [hp] at this
      have : own Pc.gone = 1 := rfl
      omega
  | elsewhere f n =>
    simp only at hs
    split at hs <;> try (simp only [reduceCtorEq] at hs; done)
    simp only [Option.some.injEq, Prod.mk.injEq] at hs
    obtain ⟨rfl, rfl⟩ := hs
    obtain ⟨obj, pend, hret, over, left, freed, abo⟩ := h
    exact ⟨trivial, obj, pend, hret, over, left, freed, abo⟩
  | run f =>
    simp only [run] at hs
    split at hs <;> try (simp only [reduceCtorEq] at hs; done)
    · rename_i k g ep hp
      split at hs <;> try (simp only [reduceCtorEq] at hs; done)
      simp only [Option.some.injEq, Prod.mk.injEq] at hs
      obtain ⟨rfl, rfl⟩ := hs
      obtain ⟨obj, pend, hret, over, left, freed, abo⟩ := h
      refine ⟨trivial, obj, fun hA g => ?_, fun g => ?_, fun g => ?_, fun g => ?_, fun g => ?_, abo⟩
      all_goals simp only [List.foldl_nil, pend ha, hret, over, left, freed, upd_apply]
      all_goals
        split
        · subst_vars; try rw [hp]
          first | rfl | simp
        · rfl
    · rename_i k g hp
      have hj := hc.joi f k g hp
      have hgf : g ≠ f := by
        rintro rfl
        have := hj.1; rw [hc.trm, hp] at this; simp [Pc.over] at this
      have hov : sp.over g = true := by rw [h.over, ← hc.trm]; exact hj.1
      have h1 : ∀ s1 : State, s1.hd = upd s.hd k (some none) → s1.pc = upd s.pc f .idle → s1.live = s.live → s1.aborted = s.aborted →
          Runs sp [.ret f (.join k) (some g) .ok] ∧ Sim s1 ([.ret f (.join k) (some g) .ok].foldl Spec.after sp) := by
        intro s1 e1 e2 e3 e4
        obtain ⟨obj, pend, hret, over, left, freed, abo⟩ := h
        refine ⟨⟨⟨by rw [abo, ha], by rw [pend ha, hp]; rfl, ?_⟩, trivial⟩, ?_, fun hA g => ?_, fun g => ?_, fun g => ?_, fun g => ?_, fun g => ?_, ?_⟩
        · simp [Spec.allowed, hgf, hov]
        · simp [Spec.after, apply, e1, obj]
        · simp only [List.foldl_cons, List.foldl_nil, Spec.after, upd_apply, e2, pend ha]
          split <;> rfl
        all_goals try simp only [List.foldl_cons, List.foldl_nil, Spec.after, hret, over, left, freed, upd_apply, e2, e3]
        · split
          · subst_vars; rw [hp]; rfl
          · rfl
        · split
          · subst_vars; rw [hp]; rfl
          · rfl
        · split
          · subst_vars; rw [hp]; rfl
          · rfl
        · split
          · subst_vars; rw [hp]; simp
          · rfl
        · rw [e4]; exact abo
      split at hs
      · rename_i g' hg'
        have : g' = g := by rcases hj.2 with h | h <;> simp_all
        subst this
        simp only [Option.some.injEq, Prod.mk.injEq] at hs
        obtain ⟨rfl, rfl⟩ := hs
        have h2 := h1 { s with pc := upd s.pc f .idle, users := upd s.users k ((s.users k).erase f), hd := upd s.hd k (some none) }
          rfl rfl rfl rfl
        have hr := hc.held k g' hg'
        have h3 := sim_drop (g := g') h2.2 ha (by simp only [upd_other _ _ hgf]; exact (hc.hold k g' hg').1)
          ((hc.liv g').2 (by omega)) ?_
        · exact ⟨Runs.append h2.1 h3.1, h3.2⟩
        · intro e
          simp only [upd_other _ _ hgf] at e ⊢
          have : own (s.pc g') = 0 := by omega
          rw [own_pos.1 this]
          refine ⟨rfl, ?_⟩
          intro j; simp only [upd_apply]; split
          · simp
          · rename_i hj; exact fun hj' => hj (hc.uniq _ _ _ hj' hg')
      · rename_i hn
        simp only [Option.some.injEq, Prod.mk.injEq] at hs
        obtain ⟨rfl, rfl⟩ := hs
        refine h1 _ ?_ rfl rfl rfl
        have hk : s.hd k = some none := by
          rcases hj.2 with h | h
          · exact h
          · exact absurd h (hn g)
        funext j; simp only [upd_apply]; split
        · subst_vars; exact hk
        · rfl
    · rename_i hp
      have hmn : s.main f = false := by
        cases hm : s.main f with
        | false => rfl
        | true => exact absurd hp (hc.mn f hm).2.1
      have hlive : s.live f = true := by
        rw [hc.liv]
        by_cases hh : ∃ k, s.hd k = some (some f)
        · obtain ⟨k, hk⟩ := hh; rw [hc.held k f hk]; omega
        · rw [hc.free f (by simp [hp]) hmn (fun k hk => hh ⟨k, hk⟩), hp]; decide
      rw [if_pos hlive] at hs
      simp only [Option.some.injEq, Prod.mk.injEq] at hs
      obtain ⟨rfl, rfl⟩ := hs
      have hterm : s.term f = false := by rw [hc.trm, hp]; rfl
      obtain ⟨obj, pend, hret, over, left, freed, abo⟩ := h
      refine ⟨⟨⟨by rw [abo, ha], by rw [hret, hp]; rfl, by rw [over, hp]; rfl, ?_, ?_⟩, trivial⟩, obj, fun hA g => ?_, fun g => ?_, fun g => ?_, fun g => ?_, fun g => ?_, abo⟩
      · rw [hw.w.notifyAll_eq]; exact hw.w.nodup_live f
      · intro g
        rw [hw.w.notifyAll_eq, hw.w.mem_live_iff]
        constructor
        · rintro ⟨r, h1, h2, -, -⟩
          rw [pend ha]
          cases hpg : s.pc g <;> simp only [hpg, regOf, reduceCtorEq, Option.some.injEq] at h1
          subst h1
          subst h2
          exact ⟨_, rfl⟩
        · rintro ⟨k, h1⟩
          rw [pend ha] at h1
          cases hpg : s.pc g <;> simp only [hpg, pendOf, reduceCtorEq, Option.some.injEq, Prod.mk.injEq, Op.join.injEq] at h1
          · obtain ⟨rfl, rfl⟩ := h1
            refine ⟨_, rfl, rfl, rfl, ?_⟩
            have := hw.rd _ _ _ _ hpg
            rw [hterm] at this
            simpa using this
          · obtain ⟨rfl, rfl⟩ := h1
            have := (hc.joi _ _ _ hpg).1
            simp_all
      all_goals simp only [List.foldl_cons, List.foldl_nil, Spec.after, pend ha, hret, over, left, freed, upd_apply]
      all_goals
        split
        · subst_vars; try rw [hp]
          first | rfl | simp
        · rfl
    · rename_i hp
      have hmn : s.main f = false := by
        cases hm : s.main f with
        | false => rfl
        | true => have := (hc.mn f hm).2.2.2; rw [hc.trm, hp] at this; simp [Pc.over] at this
      have hlive : s.live f = true := by
        rw [hc.liv]
        by_cases hh : ∃ k, s.hd k = some (some f)
        · obtain ⟨k, hk⟩ := hh; rw [hc.held k f hk]; omega
        · rw [hc.free f (by simp [hp]) hmn (fun k hk => hh ⟨k, hk⟩), hp]; decide
      rw [if_pos hlive] at hs
      simp only [Option.some.injEq, Prod.mk.injEq] at hs
      obtain ⟨rfl, rfl⟩ := hs
      obtain ⟨obj, pend, hret, over, left, freed, abo⟩ := h
      refine ⟨⟨⟨by rw [abo, ha], by rw [over, hp]; rfl, by rw [left, hp]; rfl⟩, trivial⟩, obj, fun hA g => ?_, fun g => ?_, fun g => ?_, fun g => ?_, fun g => ?_, abo⟩
      all_goals simp only [List.foldl_cons, List.foldl_nil, Spec.after, pend ha, hret, over, left, freed, upd_apply]
      all_goals
        split
        · subst_vars; try rw [hp]
          first | rfl | simp
        · rfl

theorem reach_sim {s : State} {tr : List Obs} (h : Reach step init s tr) : Runs Spec.init tr ∧ Sim s (replay tr) := by
  refine Reach.inv (fun s tr => Runs Spec.init tr ∧ Sim s (replay tr)) ⟨trivial, sim_init⟩ ?_ h
  rintro s tr e s' o hr ⟨h1, h2⟩ hs
  obtain ⟨hc, hw, -⟩ := reach_inv hr
  have h3 := sim_step hc hw h2 hs
  exact ⟨h1.append h3.1, by rw [replay_append]; exact h3.2⟩

end Verif.Fib
