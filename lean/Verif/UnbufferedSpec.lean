import Verif.UnbufferedSafety

/-!
# Specification of the unbuffered channel, and the simulation

The specification knows at most one value on offer, a flag, and for every fiber the call it is in and how far the
hand-over has come. It knows nothing of slots on stacks, wakers, queues or locks.
-/

namespace Verif.Unbuf

variable {V : Type}

/-- How far the hand-over of a call has come. -/
inductive Phase (V : Type)
  | fresh                        -- nothing offered and nothing taken
  | offered                      -- a push whose value has been on offer
  | delivered                    -- a push whose value has been returned by a pop
  | got (r : Ref) (v : V)        -- a pop that took the value `v` offered by `r`
  deriving DecidableEq, Repr

structure Call (V : Type) where
  k  : Nat
  op : Op V
  ph : Phase V
  deriving DecidableEq, Repr

structure Spec (V : Type) where
  offer  : Option (Ref × V)
  closed : Bool
  inCall : Fid → Option (Call V)
  ncalls : Fid → Nat

def Spec.init : Spec V := { offer := none, closed := false, inCall := fun _ => none, ncalls := fun _ => 0 }

/-- The call `r` is marked as delivered, if it is still running. -/
def Spec.mark (sp : Spec V) (r : Ref) : Spec V :=
  match sp.inCall r.f with
  | some c => if c.k = r.k then { sp with inCall := upd sp.inCall r.f (some { c with ph := .delivered }) } else sp
  | none => sp

def Spec.finish (sp : Spec V) (f : Fid) : Spec V := { sp with inCall := upd sp.inCall f none }

/-- Which results a call may return, and what that does. -/
def Spec.ret (sp : Spec V) (f : Fid) (c : Call V) (r : Res V) (t : Nat) : Option (Spec V) :=
  match c.op, r with
  | .push _ _, .pushed =>
    match c.ph with
    | .delivered => if sp.closed then none else some (sp.finish f)
    | _ => none
  | .push _ _, .closed => if sp.closed then some (sp.finish f) else none
  | .push _ (some d), .timeout =>
    if d ≤ t then
      some ({ sp with offer := if sp.offer.map Prod.fst = some (Ref.mk f c.k) then none else sp.offer }.finish f)
    else none
  | .pop _, .closed | .valuePop, .threw =>
    match c.ph with
    | .fresh => if sp.closed then some (sp.finish f) else none
    | _ => none
  | .pop (some d), .timeout =>
    match c.ph with
    | .fresh => if d ≤ t then some (sp.finish f) else none
    | _ => none
  | .pop _, .failed | .valuePop, .failed =>
    match c.ph with
    | .got _ _ => some (sp.finish f)
    | _ => none
  | .close, .void => if sp.closed then some (sp.finish f) else none
  | .isClosed, .bool b => if b = sp.closed then some (sp.finish f) else none
  | _, _ => none

/-- A pop returns the value it took. -/
def Spec.retPopped [DecidableEq V] (sp : Spec V) (f : Fid) (c : Call V) (v : V) : Option (Spec V) :=
  match c.op, c.ph with
  | .pop _, .got r w | .valuePop, .got r w => if v = w then some ((sp.finish f).mark r) else none
  | _, _ => none

def Spec.next [DecidableEq V] (sp : Spec V) : Obs V → Option (Spec V)
  | .called f k op =>
    if sp.inCall f = none ∧ k = sp.ncalls f + 1 then
      some { sp with inCall := upd sp.inCall f (some ⟨k, op, .fresh⟩), ncalls := upd sp.ncalls f k }
    else none
  | .placed f k v =>
    match sp.inCall f with
    | some ⟨k', .push v' dl, .fresh⟩ =>
      if k' = k ∧ v' = v ∧ sp.offer = none then
        some { sp with offer := some (⟨f, k⟩, v), inCall := upd sp.inCall f (some ⟨k, .push v dl, .offered⟩) }
      else none
    | _ => none
  | .took g j f k =>
    match sp.offer with
    | some (r, v) =>
      match sp.inCall g with
      | some ⟨j', .pop dl, .fresh⟩ =>
        if j' = j ∧ r = ⟨f, k⟩ then
          some { sp with offer := none, inCall := upd sp.inCall g (some ⟨j, .pop dl, .got r v⟩) }
        else none
      | some ⟨j', .valuePop, .fresh⟩ =>
        if j' = j ∧ r = ⟨f, k⟩ then
          some { sp with offer := none, inCall := upd sp.inCall g (some ⟨j, .valuePop, .got r v⟩) }
        else none
      | _ => none
    | none => none
  | .closedAt f =>
    match sp.inCall f with
    | some ⟨_, .close, _⟩ => if sp.closed then none else some { sp with closed := true }
    | _ => none
  | .ret f k op r t =>
    match sp.inCall f with
    | some c =>
      if c.k = k ∧ c.op = op then
        match r with
        | .popped v => sp.retPopped f c v
        | _ => sp.ret f c r t
      else none
    | none => none
  | .ub _ => some sp

def Spec.run [DecidableEq V] : Spec V → List (Obs V) → Option (Spec V)
  | sp, [] => some sp
  | sp, o :: os =>
    match sp.next o with
    | none => none
    | some sp' => sp'.run os

theorem Spec.run_append [DecidableEq V] {t1 t2 : List (Obs V)} : ∀ {sp sp1 : Spec V},
    sp.run t1 = some sp1 → sp.run (t1 ++ t2) = sp1.run t2 := by
  induction t1 with
  | nil => intro sp sp1 h; simp only [Spec.run, Option.some.injEq] at h; subst h; rfl
  | cons o os ih =>
    intro sp sp1 h
    simp only [Spec.run, List.cons_append] at h ⊢
    split at h
    · cases h
    · exact ih h

/-! ## The simulation -/

/-- `r` has offered `v`: its call is over, or still shows the value. -/
def RefOK (s : State V) (r : Ref) (v : V) : Prop :=
  r.k ≤ s.calls r.f ∧ (s.calls r.f = r.k → s.pc r.f = .idle ∨ (s.pc r.f).published = some v)

def PhOK (s : State V) (f : Fid) (ph : Phase V) : Prop :=
  match s.pc f with
  | .pushNotify _ dl ep | .slotWait _ dl ep =>
    (ph = .offered ∨ ph = .delivered) ∧
      (s.c.epoch f ≠ ep → ph = .delivered ∨ s.closed = true ∨ ∃ d, dl = some d ∧ d ≤ s.now)
  | .slotAfter _ _ _ => ph = .delivered ∨ s.closed = true
  | .slotLate _ dl _ => ∃ d, dl = some d ∧ d ≤ s.now
  | .unlinkPush _ dl _ => ph = .fresh ∧ ∃ d, dl = some d ∧ d ≤ s.now
  | .unlinkPop p _ => ph = .fresh ∧ ∃ d, p = .pop (some d) ∧ d ≤ s.now
  | .popNotify _ r | .popRead _ r => ∃ v, ph = .got r v ∧ RefOK s r v
  | .popWake _ r v => ph = .got r v ∧ RefOK s r v
  | _ => ph = .fresh

structure R (s : State V) (sp : Spec V) : Prop where
  hc  : sp.closed = s.closed
  hn  : sp.ncalls = s.calls
  ho  : sp.offer.map Prod.fst = s.slot
  hov : ∀ r v, sp.offer = some (r, v) → RefOK s r v
  hin : ∀ f, (sp.inCall f).map (fun c => (c.k, c.op)) = (opOf (s.pc f)).map (fun op => (s.calls f, op))
  hph : ∀ f c, sp.inCall f = some c → PhOK s f c.ph

theorem ref_run {s s' : State V} {o : List (Obs V)} {f : Fid} {b : Bool} (hs : run s f b = some (s', o)) {r : Ref} {v : V}
    (h : RefOK s r v) : RefOK s' r v := by
  obtain ⟨h1, h2⟩ := h
  ucases s, f, hs, hp
  all_goals
    refine ⟨h1, fun hk => ?_⟩
    have := h2 hk
    (try simp only [upd_apply])
    grind [Pc.published]

theorem ref_step {s s' : State V} {o : List (Obs V)} {e : Event V} (hs : step s e = some (s', o)) {r : Ref} {v : V}
    (h : RefOK s r v) : RefOK s' r v := by
  simp only [step] at hs
  split at hs
  · cases hs
  cases e with
  | run f => exact ref_run hs h
  | fail f => exact ref_run hs h
  | call f op =>
    simp only [stepOk] at hs
    split at hs <;> simp only [Option.some.injEq, Prod.mk.injEq, reduceCtorEq] at hs
    obtain ⟨rfl, rfl⟩ := hs
    obtain ⟨h1, h2⟩ := h
    simp only [RefOK, upd_apply]
    split
    · rename_i hf; subst hf; exact ⟨by omega, by omega⟩
    · exact ⟨h1, h2⟩
  | timer f =>
    simp only [stepOk] at hs
    split at hs
    case h_2 => cases hs
    split at hs <;> simp only [Option.some.injEq, Prod.mk.injEq, reduceCtorEq] at hs
    obtain ⟨rfl, rfl⟩ := hs
    exact h
  | tick n =>
    simp only [stepOk, Option.some.injEq, Prod.mk.injEq] at hs
    obtain ⟨rfl, rfl⟩ := hs
    exact h
  | elsewhere f n =>
    simp only [stepOk] at hs
    split at hs <;> simp only [Option.some.injEq, Prod.mk.injEq, reduceCtorEq] at hs
    obtain ⟨rfl, rfl⟩ := hs
    exact h

theorem PhOK.mono {s s' : State V} {g : Fid} {ph : Phase V} (h : PhOK s g ph) (hpc : s'.pc g = s.pc g)
    (hc : s.closed = true → s'.closed = true) (hn : s.now ≤ s'.now) (hr : ∀ r v, RefOK s r v → RefOK s' r v)
    (he : ∀ ep, (s.pc g).offering = some ep → s'.c.epoch g = s.c.epoch g ∨ s'.closed = true) : PhOK s' g ph := by
  unfold PhOK at h ⊢
  rw [hpc]
  cases hp : s.pc g <;> simp only [hp, Pc.offering] at h he ⊢ <;> grind

theorem R.move {s s' : State V} {sp sp' : Spec V} {f : Fid} {p : Pc V} (h : R s sp) (hpc : s'.pc = upd s.pc f p)
    (hcalls : ∀ g, g ≠ f → s'.calls g = s.calls g) (hnow : s'.now = s.now) (hcl : s.closed = true → s'.closed = true)
    (href : ∀ r v, RefOK s r v → RefOK s' r v) (hspc : sp'.closed = s'.closed) (hspn : sp'.ncalls = s'.calls)
    (ho : sp'.offer.map Prod.fst = s'.slot) (hov : ∀ r v, sp'.offer = some (r, v) → RefOK s r v ∨ RefOK s' r v)
    (hin : (sp'.inCall f).map (fun c => (c.k, c.op)) = (opOf p).map (fun op => (s'.calls f, op)))
    (hph : ∀ c, sp'.inCall f = some c → PhOK s' f c.ph)
    (hoth : ∀ g, g ≠ f →
      (sp'.inCall g = sp.inCall g ∧
        ∀ ep, (s.pc g).offering = some ep → s'.c.epoch g = s.c.epoch g ∨ s'.closed = true) ∨
      ((sp'.inCall g).map (fun c => (c.k, c.op)) = (sp.inCall g).map (fun c => (c.k, c.op)) ∧
        ∀ c, sp'.inCall g = some c → PhOK s' g c.ph)) : R s' sp' := by
  refine ⟨hspc, hspn, ho, fun r v hr => (hov r v hr).elim (href r v) id, ?_, ?_⟩
  · intro g
    by_cases hg : g = f
    · subst hg; rw [hpc]; simpa using hin
    · rw [hpc, hcalls g hg]; simp only [upd_apply, if_neg hg]
      rw [← h.hin g]
      rcases hoth g hg with ⟨h1, _⟩ | ⟨h1, _⟩
      · rw [h1]
      · exact h1
  · intro g c hc
    by_cases hg : g = f
    · subst hg; exact hph c hc
    · rcases hoth g hg with ⟨h1, h2⟩ | ⟨_, h2⟩
      · exact (h.hph g c (h1 ▸ hc)).mono (by simp [hpc, hg]) hcl (by omega) href h2
      · exact h2 c hc

/-- The call a busy fiber is in. -/
theorem R.call {s : State V} {sp : Spec V} (h : R s sp) {f : Fid} {op : Op V} (ho : opOf (s.pc f) = some op) :
    ∃ ph, sp.inCall f = some ⟨s.calls f, op, ph⟩ ∧ PhOK s f ph := by
  have h1 := h.hin f
  rw [ho] at h1
  cases hc : sp.inCall f with
  | none => simp [hc] at h1
  | some c =>
    obtain ⟨k, op', ph⟩ := c
    simp only [hc, Option.map_some, Option.some.injEq, Prod.mk.injEq] at h1
    obtain ⟨rfl, rfl⟩ := h1
    exact ⟨ph, rfl, h.hph f _ hc⟩

variable [DecidableEq V]

/-- Every step of `run` is matched by the specification. -/
theorem sim_run {s s' : State V} {sp : Spec V} {o : List (Obs V)} {f : Fid} {b : Bool} (h : R s sp) (hw : WI s) (hpi : PI s)
    (hs : run s f b = some (s', o)) : ∃ sp', sp.run o = some sp' ∧ R s' sp' := by
  have href : ∀ r v, RefOK s r v → RefOK s' r v := fun r v => ref_run hs
  -- a silent step that changes no epoch of an offering fiber
  have quiet : ∀ {p : Pc V}, opOf p = opOf (s.pc f) → s'.pc = upd s.pc f p → s'.calls = s.calls → s'.now = s.now →
      s'.closed = s.closed → s'.slot = s.slot →
      (∀ ph, PhOK s f ph → PhOK s' f ph) →
      (∀ g, g ≠ f → ∀ ep, (s.pc g).offering = some ep → s'.c.epoch g = s.c.epoch g ∨ s'.closed = true) → o = [] →
      ∃ sp', sp.run o = some sp' ∧ R s' sp' := by
    intro p h1 h2 h3 h4 h5 h6 h7 h8 ho
    subst ho
    refine ⟨sp, rfl, h.move h2 (fun g _ => by rw [h3]) h4 (by simp [h5]) href (by rw [h5, h.hc]) (by rw [h3, h.hn])
      (by rw [h6, h.ho]) (fun r v hr => Or.inl (h.hov r v hr)) ?_ ?_ ?_⟩
    · rw [h1, h3]; exact h.hin f
    · intro c hc; exact h7 _ (h.hph f c hc)
    · intro g hg; exact Or.inl ⟨rfl, h8 g hg⟩
  -- the call returns
  have fin : ∀ {op : Op V} {r : Res V} {t : Nat} {ph : Phase V}, sp.inCall f = some ⟨s.calls f, op, ph⟩ →
      (∀ v, r ≠ .popped v) → s'.pc = upd s.pc f .idle → s'.calls = s.calls → s'.now = s.now →
      s'.closed = s.closed → (∀ g, g ≠ f → ∀ ep, (s.pc g).offering = some ep → s'.c.epoch g = s.c.epoch g) →
      o = [.ret f (s.calls f) op r t] → ∀ sp1 : Spec V, sp.ret f ⟨s.calls f, op, ph⟩ r t = some (sp1.finish f) →
      sp1.inCall = sp.inCall → sp1.closed = sp.closed → sp1.ncalls = sp.ncalls → sp1.offer.map Prod.fst = s'.slot →
      (∀ r v, sp1.offer = some (r, v) → sp.offer = some (r, v)) →
      ∃ sp', sp.run o = some sp' ∧ R s' sp' := by
    intro op r t ph h1 h2 h3 h4 h5 h6 h7 h8 sp1 h9 h10 h11 h12 h13 h14
    subst h8
    refine ⟨sp1.finish f, ?_, ?_⟩
    · simp only [Spec.run, Spec.next, h1, and_self, if_true]
      cases r <;> simp_all
    · refine h.move h3 (fun g _ => by rw [h4]) h5 (by simp [h6]) href ?_ ?_ h13 (fun r v hr => Or.inl (h.hov r v (h14 r v hr))) ?_ ?_ ?_
      · simp [Spec.finish, h11, h6, h.hc]
      · simp [Spec.finish, h12, h4, h.hn]
      · simp [Spec.finish, opOf]
      · simp [Spec.finish]
      · intro g hg; left; simp only [Spec.finish, upd_apply, if_neg hg, h10, true_and]
        intro ep he; exact Or.inl (h7 g hg ep he)
  have n1 : ∀ i g ep, (s.pc g).offering = some ep → (notifyOne s.c (s.q i)).1.epoch g = s.c.epoch g := by
    intro i g ep hg
    apply hw.frame_notifyOne
    cases hq : s.pc g <;> simp only [hq, Pc.offering, reduceCtorEq] at hg <;> simp [regOf]
  have nA : ∀ i g ep, (s.pc g).offering = some ep → (notifyAll s.c (s.q i)).1.epoch g = s.c.epoch g := by
    intro i g ep hg
    apply hw.frame_notifyAll
    cases hq : s.pc g <;> simp only [hq, Pc.offering, reduceCtorEq] at hg <;> simp [regOf]
  cases hp : s.pc f <;> simp only [run, hp] at hs
  case idle => cases hs
  case pushStart v dl =>
    obtain ⟨ph, hc, hph⟩ := h.call (f := f) (op := .push v dl) (by simp [hp, opOf])
    split at hs <;> simp only [State.ret, State.goto, Option.some.injEq, Prod.mk.injEq] at hs <;>
      obtain ⟨rfl, rfl⟩ := hs
    · rename_i hcl
      exact fin hc (by simp) rfl rfl rfl rfl (by simp) rfl sp (by simp [Spec.ret, h.hc, hcl]) rfl rfl rfl h.ho (fun _ _ => id)
    · exact quiet (p := .pushTry v dl) (by simp [hp, opOf]) rfl rfl rfl rfl rfl (by simp [PhOK, hp]) (by simp) rfl
  case pushTry v dl =>
    obtain ⟨ph, hc, hph⟩ := h.call (f := f) (op := .push v dl) (by simp [hp, opOf])
    simp only [PhOK, hp] at hph
    subst hph
    split at hs <;> simp only [createWaker, Option.some.injEq, Prod.mk.injEq] at hs <;> obtain ⟨rfl, rfl⟩ := hs
    · rename_i hsl
      have hno : sp.offer = none := by simpa [hsl] using h.ho
      refine ⟨_, by simp only [Spec.run, Spec.next, hc, hno, and_self, if_true]; rfl, ?_⟩
      refine h.move (f := f) rfl (fun _ _ => rfl) rfl (by simp) href h.hc h.hn rfl ?_ ?_ ?_ ?_
      · intro r w hr
        simp only [Option.some.injEq, Prod.mk.injEq] at hr
        obtain ⟨rfl, rfl⟩ := hr
        right; simp [RefOK, Pc.published]
      · simp [opOf]
      · simp [PhOK]
      · intro g hg; left; simp [hg]
    · exact quiet (p := .pushLock v dl) (by simp [hp, opOf]) rfl rfl rfl rfl rfl (by simp [PhOK, hp])
        (by intro g hg; simp [hg]) rfl
  case pushNotify v dl ep =>
    split at hs <;> simp only [Option.some.injEq, Prod.mk.injEq, reduceCtorEq] at hs
    obtain ⟨rfl, rfl⟩ := hs
    refine quiet (p := .slotWait v dl ep) (by simp [hp, opOf]) rfl rfl rfl rfl rfl ?_
        (by intro g hg ep' he; left; exact n1 .cons g ep' he) rfl
    intro ph
    simp only [PhOK, hp, upd_same]
    rw [n1 .cons f ep (by simp [hp, Pc.offering])]
    exact id
  case slotWait v dl ep =>
    obtain ⟨ph, hc, hph⟩ := h.call (f := f) (op := .push v dl) (by simp [hp, opOf])
    simp only [State.resume] at hs
    split at hs
    case isFalse => cases hs
    rename_i hr
    have hep : s.c.epoch f = ep + 1 := by
      obtain ⟨gh, hw⟩ := hw
      exact (hw.ready_iff (f := f) (r := ⟨none, ep, dl, false⟩) (by simp [hp, regOf]) rfl).1 hr
    split at hs
    · simp only [Option.some.injEq, Prod.mk.injEq] at hs; obtain ⟨rfl, rfl⟩ := hs
      refine quiet (p := .slotAfter v none ep) (by simp [hp, opOf]) rfl rfl rfl rfl rfl ?_ (by simp [consumeReady]) rfl
      intro ph; simp [PhOK, hp, hep]
    · split at hs <;> simp only [Option.some.injEq, Prod.mk.injEq] at hs <;> obtain ⟨rfl, rfl⟩ := hs
      · rename_i d hlt
        refine quiet (p := .slotAfter v (some d) ep) (by simp [hp, opOf]) rfl rfl rfl rfl rfl ?_ (by simp [consumeReady]) rfl
        intro ph; simp [PhOK, hp, hep]
        intro _ h2; rcases h2 with h2 | h2 | h2
        · exact Or.inl h2
        · exact Or.inr h2
        · omega
      · rename_i d hlt
        refine quiet (p := .slotLate v (some d) ep) (by simp [hp, opOf]) rfl rfl rfl rfl rfl ?_ (by simp [consumeReady]) rfl
        intro ph; simp [PhOK, hp, hep]
        intros; omega
  case slotAfter v dl ep =>
    obtain ⟨ph, hc, hph⟩ := h.call (f := f) (op := .push v dl) (by simp [hp, opOf])
    simp only [PhOK, hp] at hph
    simp only [State.ret, State.goto, Option.some.injEq, Prod.mk.injEq] at hs; obtain ⟨rfl, rfl⟩ := hs
    refine fin hc (by intro v; split <;> simp) rfl rfl rfl rfl (by simp) rfl sp ?_ rfl rfl rfl h.ho (fun _ _ => id)
    split
    · simp_all [Spec.ret, h.hc]
    · rename_i hcl
      have : ph = .delivered := by grind
      simp [Spec.ret, this, h.hc, hcl]
  case slotLate v dl ep =>
    obtain ⟨ph, hc, hph⟩ := h.call (f := f) (op := .push v dl) (by simp [hp, opOf])
    simp only [PhOK, hp] at hph
    obtain ⟨d, rfl, hd⟩ := hph
    simp only [State.ret, State.goto, Option.some.injEq, Prod.mk.injEq] at hs; obtain ⟨rfl, rfl⟩ := hs
    refine fin hc (by simp) rfl rfl rfl rfl (by simp) rfl
      { sp with offer := if sp.offer.map Prod.fst = some (Ref.mk f (s.calls f)) then none else sp.offer } (by simp [Spec.ret, hd]) rfl rfl rfl ?_ ?_
    · simp only [h.ho]; split <;> simp [h.ho]
    · intro r v; simp only; split <;> simp
  case pushLock v dl =>
    obtain ⟨ph, hc, hph⟩ := h.call (f := f) (op := .push v dl) (by simp [hp, opOf])
    split at hs
    case h_2 => cases hs
    split at hs <;> simp only [State.ret, State.goto, Option.some.injEq, Prod.mk.injEq] at hs <;>
      obtain ⟨rfl, rfl⟩ := hs
    · rename_i hcl
      exact fin hc (by simp) rfl rfl rfl rfl (by simp) rfl sp (by simp [Spec.ret, h.hc, hcl]) rfl rfl rfl h.ho (fun _ _ => id)
    · exact quiet (p := .pushLocked v dl) (by simp [hp, opOf]) rfl rfl rfl rfl rfl (by simp [PhOK, hp]) (by simp) rfl
  case pushLocked v dl =>
    split at hs <;> simp only [Option.some.injEq, Prod.mk.injEq] at hs <;> obtain ⟨rfl, rfl⟩ := hs
    · exact quiet (p := .pushStart v dl) (by simp [hp, opOf]) rfl rfl rfl rfl rfl (by simp [PhOK, hp]) (by simp) rfl
    · exact quiet (p := .waitPush v dl (s.c.epoch f + 1)) (by simp [hp, opOf]) rfl rfl rfl rfl rfl
        (by simp [PhOK, hp, State.block]) (by intro g hg; simp [State.block, enqueue, createWaker, hg]) rfl
  case popStart p =>
    obtain ⟨ph, hc, hph⟩ := h.call (f := f) (op := p.op) (by simp [hp, opOf])
    simp only [PhOK, hp] at hph
    subst hph
    split at hs <;> simp only [State.goto, Option.some.injEq, Prod.mk.injEq] at hs <;> obtain ⟨rfl, rfl⟩ := hs
    · rename_i r hsl
      have hno := h.ho
      rw [hsl] at hno
      cases hof : sp.offer with
      | none => simp [hof] at hno
      | some rv =>
        obtain ⟨r', v⟩ := rv
        simp only [hof, Option.map_some, Option.some.injEq] at hno
        subst hno
        refine ⟨{ sp with offer := none, inCall := upd sp.inCall f (some ⟨s.calls f, p.op, .got r' v⟩) }, ?_, ?_⟩
        · cases p <;> simp [Spec.run, Spec.next, hof, hc, PopOp.op]
        · refine h.move (f := f) rfl (fun _ _ => rfl) rfl (by simp) href h.hc h.hn rfl (by simp) ?_ ?_ ?_
          · simp [opOf]
          · simp only [upd_same, Option.some.injEq, PhOK]
            rintro _ rfl
            exact ⟨v, rfl, href _ _ (h.hov _ _ hof)⟩
          · intro g hg; left; simp [hg]
    · exact quiet (p := .popLock p) (by simp [hp, opOf]) rfl rfl rfl rfl rfl (by simp [PhOK, hp]) (by simp) rfl
  case popNotify p r =>
    split at hs <;> simp only [Option.some.injEq, Prod.mk.injEq, reduceCtorEq] at hs
    obtain ⟨rfl, rfl⟩ := hs
    refine quiet (p := .popRead p r) (by simp [hp, opOf]) rfl rfl rfl rfl rfl ?_
        (by intro g hg ep' he; left; exact n1 .prod g ep' he) rfl
    intro ph; simp only [PhOK, hp, upd_same]
    rintro ⟨v, h1, h2⟩; exact ⟨v, h1, href _ _ h2⟩
  case popRead p r =>
    split at hs
    · rename_i v e hd
      split at hs
      · obtain ⟨ph, hc, hph⟩ := h.call (f := f) (op := p.op) (by simp [hp, opOf])
        simp only [PhOK, hp] at hph
        obtain ⟨w, rfl, -⟩ := hph
        simp only [State.ret, State.goto, Option.some.injEq, Prod.mk.injEq] at hs
        obtain ⟨rfl, rfl⟩ := hs
        refine fin hc (by simp) rfl rfl rfl rfl (by simp) rfl sp ?_ rfl rfl rfl h.ho (fun _ _ => id)
        cases p <;> simp [Spec.ret, PopOp.op]
      simp only [State.goto, Option.some.injEq, Prod.mk.injEq] at hs
      obtain ⟨rfl, rfl⟩ := hs
      refine quiet (p := .popWake p r v) (by simp [hp, opOf]) rfl rfl rfl rfl rfl ?_ (by simp) rfl
      intro ph; simp only [PhOK, hp, upd_same]
      rintro ⟨w, h1, h2⟩
      have : w = v := by
        simp only [State.deref] at hd
        split at hd
        case isFalse => cases hd
        rename_i hk
        have h3 := h2.2 hk
        cases hq : s.pc r.f <;> simp only [hq, frameOf, Pc.published, reduceCtorEq, false_or, or_false] at hd h3 <;> simp_all
      subst this
      exact ⟨h1, href _ _ h2⟩
    · simp only [State.crash, Option.some.injEq, Prod.mk.injEq] at hs
      obtain ⟨rfl, rfl⟩ := hs
      exact ⟨sp, rfl, ⟨h.hc, h.hn, h.ho, h.hov, h.hin, h.hph⟩⟩
  case popWake p r v =>
    obtain ⟨ph, hc, hph⟩ := h.call (f := f) (op := p.op) (by simp [hp, opOf])
    simp only [PhOK, hp] at hph
    obtain ⟨rfl, hrf⟩ := hph
    split at hs <;> simp only [State.ret, State.goto, State.crash, Option.some.injEq, Prod.mk.injEq] at hs <;>
      obtain ⟨rfl, rfl⟩ := hs
    · rename_i v' ep hd
      simp only [State.deref] at hd
      split at hd
      case isFalse => cases hd
      rename_i hk
      have hrne : r.f ≠ f := by intro h; rw [h, hp] at hd; simp [frameOf] at hd
      obtain ⟨op', hop⟩ : ∃ op', opOf (s.pc r.f) = some op' := by
        cases hq : s.pc r.f <;> simp [hq, frameOf] at hd <;> simp [opOf]
      obtain ⟨ph', hc', hph'⟩ := h.call hop
      refine ⟨{ sp with inCall := upd (upd sp.inCall f none) r.f (some ⟨s.calls r.f, op', .delivered⟩) }, ?_, ?_⟩
      · cases p <;> simp [Spec.run, Spec.next, hc, PopOp.op, Spec.retPopped, Spec.finish, Spec.mark, upd_apply, hrne, hc', hk]
      · refine h.move (f := f) rfl (fun _ _ => rfl) rfl (by simp) href h.hc h.hn h.ho (fun r v hr => Or.inl (h.hov r v hr)) ?_ ?_ ?_
        · simp [opOf, upd_apply, hrne.symm]
        · simp [upd_apply, hrne.symm]
        · intro g hg
          by_cases hgr : g = r.f
          · right
            subst hgr
            simp only [upd_same, hc', Option.map_some, Option.some.injEq, true_and]
            rintro _ rfl
            cases hq : s.pc r.f <;> simp [hq, frameOf] at hd <;> simp [PhOK, hg, hq]
            simpa [PhOK, hq] using hph'
          · left
            simp only [upd_apply, if_neg hg, if_neg hgr, true_and]
            intro e _; left; exact (wake_epoch_ne s.c ⟨r.f, ep⟩ hgr).1
    · exact ⟨sp, rfl, ⟨h.hc, h.hn, h.ho, h.hov, h.hin, h.hph⟩⟩
  case popLock p =>
    obtain ⟨ph, hc, hph⟩ := h.call (f := f) (op := p.op) (by simp [hp, opOf])
    simp only [PhOK, hp] at hph
    split at hs
    case h_2 => cases hs
    split at hs <;> simp only [State.ret, State.goto, Option.some.injEq, Prod.mk.injEq] at hs <;>
      obtain ⟨rfl, rfl⟩ := hs
    · rename_i hcl
      refine fin hc (by cases p <;> simp [closedRes]) rfl rfl rfl rfl (by simp) rfl sp ?_ rfl rfl rfl h.ho (fun _ _ => id)
      cases p <;> simp [Spec.ret, h.hc, hcl, PopOp.op, closedRes, hph]
    · exact quiet (p := .popLocked p) (by simp [hp, opOf]) rfl rfl rfl rfl rfl (by simp [PhOK, hp]) (by simp) rfl
  case popLocked p =>
    split at hs <;> simp only [Option.some.injEq, Prod.mk.injEq] at hs <;> obtain ⟨rfl, rfl⟩ := hs
    · exact quiet (p := .popStart p) (by simp [hp, opOf]) rfl rfl rfl rfl rfl (by simp [PhOK, hp]) (by simp) rfl
    · exact quiet (p := .waitPop p (s.c.epoch f + 1)) (by simp [hp, opOf]) rfl rfl rfl rfl rfl
        (by simp [PhOK, hp, State.block]) (by intro g hg; simp [State.block, enqueue, createWaker, hg]) rfl
  case waitPush v dl ep =>
    simp only [State.resume] at hs
    split at hs
    case isFalse => cases hs
    split at hs
    · simp only [Option.some.injEq, Prod.mk.injEq] at hs; obtain ⟨rfl, rfl⟩ := hs
      exact quiet (p := .pushStart v none) (by simp [hp, opOf]) rfl rfl rfl rfl rfl (by simp [PhOK, hp]) (by simp [consumeReady]) rfl
    · split at hs <;> simp only [Option.some.injEq, Prod.mk.injEq] at hs <;> obtain ⟨rfl, rfl⟩ := hs
      · rename_i d hlt
        exact quiet (p := .pushStart v (some d)) (by simp [hp, opOf]) rfl rfl rfl rfl rfl (by simp [PhOK, hp]) (by simp [consumeReady]) rfl
      · rename_i d hlt
        exact quiet (p := .unlinkPush v (some d) ep) (by simp [hp, opOf]) rfl rfl rfl rfl rfl
          (by simp [PhOK, hp]; intros; omega) (by simp [consumeReady]) rfl
  case waitPop p ep =>
    simp only [State.resume] at hs
    split at hs
    case isFalse => cases hs
    split at hs
    · simp only [Option.some.injEq, Prod.mk.injEq] at hs; obtain ⟨rfl, rfl⟩ := hs
      exact quiet (p := .popStart p) (by simp [hp, opOf]) rfl rfl rfl rfl rfl (by simp [PhOK, hp]) (by simp [consumeReady]) rfl
    · rename_i hdl
      split at hs <;> simp only [Option.some.injEq, Prod.mk.injEq] at hs <;> obtain ⟨rfl, rfl⟩ := hs
      · exact quiet (p := .popStart p) (by simp [hp, opOf]) rfl rfl rfl rfl rfl (by simp [PhOK, hp]) (by simp [consumeReady]) rfl
      · rename_i d hlt
        refine quiet (p := .unlinkPop p ep) (by simp [hp, opOf]) rfl rfl rfl rfl rfl ?_ (by simp [consumeReady]) rfl
        intro ph; cases p <;> simp_all [PhOK, PopOp.dl]
  case unlinkPush v dl ep =>
    obtain ⟨ph, hc, hph⟩ := h.call (f := f) (op := .push v dl) (by simp [hp, opOf])
    simp only [PhOK, hp] at hph
    obtain ⟨rfl, d, rfl, hd⟩ := hph
    simp only [State.unlink, State.ret, State.goto] at hs
    split at hs <;> simp only [Option.some.injEq, Prod.mk.injEq, reduceCtorEq] at hs
    obtain ⟨rfl, rfl⟩ := hs
    refine fin hc (by simp) rfl rfl rfl rfl (by simp) rfl
      { sp with offer := if sp.offer.map Prod.fst = some (Ref.mk f (s.calls f)) then none else sp.offer } (by simp [Spec.ret, hd]) rfl rfl rfl ?_ ?_
    · simp only [h.ho]; split
      · rename_i hsl
        exfalso
        cases hof : sp.offer with
        | none => simp [hof, ← h.ho] at hsl
        | some rv =>
          obtain ⟨r', v'⟩ := rv
          have h1 := (h.hov r' v' hof).2
          simp only [← h.ho, hof, Option.map_some, Option.some.injEq] at hsl
          subst hsl
          simp [hp, Pc.published] at h1
      · exact h.ho
    · intro r v; simp only; split <;> simp
  case unlinkPop p ep =>
    obtain ⟨ph, hc, hph⟩ := h.call (f := f) (op := p.op) (by simp [hp, opOf])
    simp only [PhOK, hp] at hph
    obtain ⟨rfl, d, rfl, hd⟩ := hph
    simp only [State.unlink, State.ret, State.goto] at hs
    split at hs <;> simp only [Option.some.injEq, Prod.mk.injEq, reduceCtorEq] at hs
    obtain ⟨rfl, rfl⟩ := hs
    exact fin hc (by simp) rfl rfl rfl rfl (by simp) rfl sp (by simp [Spec.ret, PopOp.op, hd]) rfl rfl rfl h.ho (fun _ _ => id)
  case closeStart =>
    obtain ⟨ph, hc, hph⟩ := h.call (f := f) (op := .close) (by simp [hp, opOf])
    split at hs <;> simp only [State.ret, State.goto, Option.some.injEq, Prod.mk.injEq] at hs <;>
      obtain ⟨rfl, rfl⟩ := hs
    · rename_i hcl
      exact fin hc (by simp) rfl rfl rfl rfl (by simp) rfl sp (by simp [Spec.ret, h.hc, hcl]) rfl rfl rfl h.ho (fun _ _ => id)
    · rename_i hcl
      refine ⟨{ sp with closed := true }, by simp [Spec.run, Spec.next, hc, h.hc, hcl], ?_⟩
      refine h.move (f := f) rfl (fun _ _ => rfl) rfl (by simp) href rfl h.hn h.ho (fun r v hr => Or.inl (h.hov r v hr)) ?_ ?_ ?_
      · simpa [opOf, hp] using h.hin f
      · intro c hcc
        have := h.hph f c hcc
        simpa [PhOK, hp] using this
      · intro g hg; left; simp
  case closeLoad =>
    split at hs <;> simp only [State.goto, Option.some.injEq, Prod.mk.injEq] at hs <;> obtain ⟨rfl, rfl⟩ := hs
    · rename_i r _
      exact quiet (p := .closeWake r) (by simp [hp, opOf]) rfl rfl rfl rfl rfl (by simp [PhOK, hp]) (by simp) rfl
    · exact quiet (p := .closeProd) (by simp [hp, opOf]) rfl rfl rfl rfl rfl (by simp [PhOK, hp]) (by simp) rfl
  case closeWake r =>
    have hcl : s.closed = true := hpi.cl f (by simp [hp, Pc.closing])
    split at hs <;> simp only [State.crash, Option.some.injEq, Prod.mk.injEq] at hs <;> obtain ⟨rfl, rfl⟩ := hs
    · exact quiet (p := .closeProd) (by simp [hp, opOf]) rfl rfl rfl rfl rfl (by simp [PhOK, hp]) (by simp [hcl]) rfl
    · exact ⟨sp, rfl, ⟨h.hc, h.hn, h.ho, h.hov, h.hin, h.hph⟩⟩
  case closeProd =>
    split at hs <;> simp only [Option.some.injEq, Prod.mk.injEq, reduceCtorEq] at hs
    obtain ⟨rfl, rfl⟩ := hs
    exact quiet (p := .closeCons) (by simp [hp, opOf]) rfl rfl rfl rfl rfl (by simp [PhOK, hp])
      (by intro g hg ep' he; left; exact nA .prod g ep' he) rfl
  case closeCons =>
    obtain ⟨ph, hc, hph⟩ := h.call (f := f) (op := .close) (by simp [hp, opOf])
    have hcl : s.closed = true := hpi.cl f (by simp [hp, Pc.closing])
    split at hs <;> simp only [State.ret, State.goto, Option.some.injEq, Prod.mk.injEq, reduceCtorEq] at hs
    obtain ⟨rfl, rfl⟩ := hs
    exact fin hc (by simp) rfl rfl rfl rfl (by intro g hg ep' he; exact nA .cons g ep' he) rfl sp
      (by simp [Spec.ret, h.hc, hcl]) rfl rfl rfl h.ho (fun _ _ => id)
  case queryClosed =>
    obtain ⟨ph, hc, hph⟩ := h.call (f := f) (op := .isClosed) (by simp [hp, opOf])
    simp only [State.ret, State.goto, Option.some.injEq, Prod.mk.injEq] at hs; obtain ⟨rfl, rfl⟩ := hs
    exact fin hc (by simp) rfl rfl rfl rfl (by simp) rfl sp (by simp [Spec.ret, h.hc]) rfl rfl rfl h.ho (fun _ _ => id)

theorem sim_step {s s' : State V} {sp : Spec V} {o : List (Obs V)} {e : Event V} (h : R s sp) (hw : WI s) (hpi : PI s)
    (hs : step s e = some (s', o)) : ∃ sp', sp.run o = some sp' ∧ R s' sp' := by
  have href : ∀ r v, RefOK s r v → RefOK s' r v := fun r v => ref_step hs
  simp only [step] at hs
  split at hs
  · cases hs
  cases e with
  | run f => exact sim_run h hw hpi hs
  | fail f => exact sim_run h hw hpi hs
  | call f op =>
    simp only [stepOk] at hs
    split at hs <;> simp only [Option.some.injEq, Prod.mk.injEq, reduceCtorEq] at hs
    rename_i hp
    obtain ⟨rfl, rfl⟩ := hs
    have hc : sp.inCall f = none := by
      have := h.hin f
      simpa [hp, opOf] using this
    refine ⟨{ sp with inCall := upd sp.inCall f (some ⟨s.calls f + 1, op, .fresh⟩), ncalls := upd sp.ncalls f (s.calls f + 1) },
      by simp [Spec.run, Spec.next, hc, h.hn], ?_⟩
    refine h.move (f := f) rfl (by intro g hg; simp [hg]) rfl (by simp) href h.hc (by simp [h.hn]) h.ho
      (fun r v hr => Or.inl (h.hov r v hr)) ?_ ?_ ?_
    · simp [(startOf_facts op).2.2.2.2.2.2]
    · simp only [upd_same, Option.some.injEq]; rintro _ rfl; cases op <;> simp [PhOK, startOf]
    · intro g hg; left; simp [hg]
  | timer f =>
    simp only [stepOk] at hs
    split at hs
    case h_2 => cases hs
    rename_i ep d hsl
    split at hs <;> simp only [Option.some.injEq, Prod.mk.injEq, reduceCtorEq] at hs
    rename_i hle
    obtain ⟨rfl, rfl⟩ := hs
    refine ⟨sp, rfl, h.move (f := f) (p := s.pc f) ?_ (fun _ _ => rfl) rfl (by simp) href h.hc h.hn h.ho
      (fun r v hr => Or.inl (h.hov r v hr)) (h.hin f) ?_ ?_⟩
    · funext g; simp only [upd_apply]; split <;> simp_all
    · intro c hc
      have := h.hph f c hc
      cases hp : s.pc f <;> simp only [hp, sleepOf, reduceCtorEq] at hsl <;> simp only [PhOK, hp] at this ⊢
      · simp only [Option.map_eq_some_iff, Prod.mk.injEq] at hsl
        obtain ⟨d', rfl, -, rfl⟩ := hsl
        exact ⟨this.1, fun _ => Or.inr (Or.inr ⟨d', rfl, hle⟩)⟩
      · exact this
      · exact this
    · intro g hg; left; exact ⟨rfl, fun _ _ => Or.inl (wake_epoch_ne s.c ⟨f, ep⟩ hg).1⟩
  | tick n =>
    simp only [stepOk, Option.some.injEq, Prod.mk.injEq] at hs
    obtain ⟨rfl, rfl⟩ := hs
    refine ⟨sp, rfl, ⟨h.hc, h.hn, h.ho, fun r v hr => href r v (h.hov r v hr), h.hin, ?_⟩⟩
    intro g c hc
    exact (h.hph g c hc).mono rfl id (by simp) href (fun _ _ => Or.inl rfl)
  | elsewhere f n =>
    simp only [stepOk] at hs
    split at hs <;> simp only [Option.some.injEq, Prod.mk.injEq, reduceCtorEq] at hs
    rename_i hp
    obtain ⟨rfl, rfl⟩ := hs
    refine ⟨sp, rfl, h.move (f := f) (p := s.pc f) ?_ (fun _ _ => rfl) rfl (by simp) href h.hc h.hn h.ho
      (fun r v hr => Or.inl (h.hov r v hr)) (h.hin f) ?_ ?_⟩
    · funext g; simp only [upd_apply]; split <;> simp_all
    · intro c hc
      have := h.hph f c hc
      simpa [PhOK, hp] using this
    · intro g hg; left; exact ⟨rfl, fun _ _ => Or.inl (by simp [hg])⟩

theorem Spec.run_snoc {t1 t2 : List (Obs V)} {sp sp1 sp2 : Spec V} (h1 : sp.run t1 = some sp1)
    (h2 : sp1.run t2 = some sp2) : sp.run (t1 ++ t2) = some sp2 := by
  rw [Spec.run_append h1, h2]

/-- Every execution of the channel, whatever its events, is accepted by the specification. -/
theorem reach_sim {s : State V} {tr : List (Obs V)} (h : Reach step init s tr) :
    ∃ sp, Spec.init.run tr = some sp ∧ R s sp := by
  refine Reach.inv (fun s tr => ∃ sp, Spec.init.run tr = some sp ∧ R s sp) ?_ ?_ h
  · refine ⟨Spec.init, rfl, ⟨rfl, rfl, rfl, by simp [Spec.init], by simp [Spec.init, init, opOf], by simp [Spec.init]⟩⟩
  · intro s tr e s' o hr ⟨sp, h1, h2⟩ hs
    obtain ⟨sp', h3, h4⟩ := sim_step h2 (reach_w hr).1 (reach_pi hr) hs
    exact ⟨sp', Spec.run_snoc h1 h3, h4⟩

end Verif.Unbuf
