import Verif.BufferedChannel
import Mathlib.Data.List.Perm.Subperm

/-!
# Specification of the buffered channel, and the simulation

The specification is a bounded queue `buf`, a flag, and the list of blocked fibers of each side. It says which
results a call may return in which situation and whom it releases; it knows nothing of rings, wakers or epochs.
-/

namespace Verif.BufCh

variable {V : Type} [DecidableEq V]

structure Spec (V : Type) where
  buf       : List V
  closed    : Bool
  inCall    : Fid → Option (Op V)
  waiting   : Side → List Fid       -- blocked fibers, longest first
  released  : Fid → Bool            -- released by another call and not yet returned or blocked again
  swallowed : Bool                  -- some released fiber has returned `timeout` or `failed`

def Spec.init : Spec V :=
  { buf := [], closed := false, inCall := fun _ => none, waiting := fun _ => [], released := fun _ => false,
    swallowed := false }

/-- Every fiber of `l` becomes released. -/
def release (r : Fid → Bool) (l : List Fid) : Fid → Bool := fun f => r f || decide (f ∈ l)

def Side.other : Side → Side
  | .prod => .cons
  | .cons => .prod

/-- `f` is blocked. -/
def Spec.blocked (sp : Spec V) (f : Fid) : Bool := decide (f ∈ sp.waiting .prod) || decide (f ∈ sp.waiting .cons)

/-- `op` may block now in a channel of capacity `cap`: an open full channel for pushes, an open empty one for
pops. -/
def Spec.mayBlock (cap : Nat) (sp : Spec V) (op : Op V) : Prop :=
  sp.closed = false ∧ ((op.side = some .prod ∧ sp.buf.length = cap - 1) ∨ (op.side = some .cons ∧ sp.buf = []))

instance (cap : Nat) (sp : Spec V) (op : Op V) : Decidable (sp.mayBlock cap op) := by
  unfold Spec.mayBlock; infer_instance

/-- The fiber's call ends. -/
def Spec.finish (sp : Spec V) (f : Fid) : Spec V :=
  { sp with inCall := upd sp.inCall f none, released := upd sp.released f false }

/-- A successful operation frees something for the other side: the longest waiting fiber there is released. -/
def Spec.freed (sp : Spec V) (i : Side) : Spec V :=
  { sp with waiting := fun j => if j = i then (sp.waiting i).tail else sp.waiting j,
            released := release sp.released (sp.waiting i).head?.toList }

/-- The value a push carries. -/
def Op.value? : Op V → Option V
  | .push v _ | .tryPush v => some v
  | _ => none

def Op.isTryPush : Op V → Bool
  | .tryPush _ => true
  | _ => false

def Op.isPop : Op V → Bool
  | .pop _ | .valuePop | .tryPop => true
  | _ => false

/-- Which results `op` may return in a channel of capacity `cap`, and what that does. -/
def Spec.ret (cap : Nat) (sp : Spec V) (f : Fid) (op : Op V) (r : Res V) (woken : List Fid) (t : Nat) :
    Option (Spec V) :=
  match r with
  | .pushed =>
    match op.value? with
    | some v =>
      if sp.closed = false ∧ sp.buf.length < cap - 1 ∧ woken = (sp.waiting .cons).head?.toList then
        some ({ sp with buf := sp.buf ++ [v] }.freed .cons |>.finish f)
      else none
    | none => none
  | .popped (some v) =>
    match sp.buf with
    | x :: rest =>
      if op.isPop ∧ x = v ∧ woken = (sp.waiting .prod).head?.toList then
        some ({ sp with buf := rest }.freed .prod |>.finish f)
      else none
    | [] => none
  | .popped none => none
  | .closed =>
    if woken = [] ∧ sp.closed = true ∧ (op.value?.isSome ∨ (op.isPop ∧ op ≠ .valuePop ∧ sp.buf = [])) then
      some (sp.finish f) else none
  | .threw => if woken = [] ∧ sp.closed = true ∧ op = .valuePop ∧ sp.buf = [] then some (sp.finish f) else none
  | .failed =>
    if woken = [] ∧ ((op.value?.isSome ∧ sp.closed = false ∧ sp.buf.length < cap - 1) ∨ (op.isPop ∧ sp.buf ≠ [])) then
      some { sp.finish f with swallowed := sp.swallowed || sp.released f }
    else none
  | .full =>
    if woken = [] ∧ sp.closed = false ∧ op.isTryPush ∧ sp.buf.length = cap - 1 then some (sp.finish f)
    else none
  | .empty => if woken = [] ∧ sp.closed = false ∧ op = .tryPop ∧ sp.buf = [] then some (sp.finish f) else none
  | .timeout =>
    match op.dl with
    | some d =>
      if woken = [] ∧ d ≤ t ∧ sp.blocked f = false then
        some { sp.finish f with swallowed := sp.swallowed || sp.released f }
      else none
    | none => none
  | .void =>
    if op = .close then
      if sp.closed then (if woken = [] then some (sp.finish f) else none)
      else if woken = sp.waiting .prod ++ sp.waiting .cons then
        some ({ sp with closed := true, waiting := fun _ => [], released := release sp.released woken }.finish f)
      else none
    else none
  | .bool b => if op = .isClosed ∧ woken = [] ∧ b = sp.closed then some (sp.finish f) else none

def Spec.next (cap : Nat) (sp : Spec V) : Obs V → Option (Spec V)
  | .called f op => if sp.inCall f = none then some { sp with inCall := upd sp.inCall f (some op) } else none
  | .blocks f =>
    match sp.inCall f with
    | none => none
    | some op =>
      match op.side with
      | none => none
      | some i =>
        if sp.mayBlock cap op ∧ sp.blocked f = false then
          some { sp with waiting := fun j => if j = i then sp.waiting i ++ [f] else sp.waiting j,
                         released := upd sp.released f false }
        else none
  | .expired f t =>
    match sp.inCall f with
    | none => none
    | some op =>
      match op.dl with
      | some d =>
        if d ≤ t ∧ sp.blocked f = true then
          some { sp with waiting := fun j => (sp.waiting j).filter (· ≠ f) }
        else none
      | none => none
  | .ret f op r woken t =>
    if sp.inCall f = some op ∧ sp.blocked f = false then sp.ret cap f op r woken t else none

def Spec.run (cap : Nat) : Spec V → List (Obs V) → Option (Spec V)
  | sp, [] => some sp
  | sp, o :: os =>
    match sp.next cap o with
    | none => none
    | some sp' => sp'.run cap os

theorem Spec.run_append {cap : Nat} {t1 t2 : List (Obs V)} : ∀ {sp sp1 : Spec V},
    sp.run cap t1 = some sp1 → sp.run cap (t1 ++ t2) = sp1.run cap t2 := by
  induction t1 with
  | nil => intro sp sp1 h; simp only [Spec.run, Option.some.injEq] at h; subst h; rfl
  | cons o os ih =>
    intro sp sp1 h
    simp only [Spec.run, List.cons_append] at h ⊢
    split at h
    · cases h
    · exact ih h

theorem Spec.run_one {cap : Nat} {sp : Spec V} {o : Obs V} : sp.run cap [o] = sp.next cap o := by
  simp only [Spec.run]; split <;> simp_all

/-! ## Simulation -/

structure Sim (cap : Nat) (s : State V) (sp : Spec V) : Prop where
  rep  : s.ring.Rep sp.buf
  cap  : s.ring.cap = cap
  cl   : sp.closed = s.closed
  call : ∀ f, sp.inCall f = opOf (s.pc f)
  wait : ∀ i, sp.waiting i = liveList s.c (s.q i)

theorem blocked_iff {sp : Spec V} {f : Fid} : sp.blocked f = true ↔ ∃ i, f ∈ sp.waiting i := by
  simp only [Spec.blocked, Bool.or_eq_true, decide_eq_true_eq]
  constructor
  · rintro (h | h) <;> exact ⟨_, h⟩
  · rintro ⟨i, h⟩; cases i <;> simp [h]

/-- Blocked in the specification = suspended and not yet scheduled in the machine. -/
theorem sim_blocked {cap : Nat} {s : State V} {sp : Spec V} (hi : Inv s) (m : Sim cap s sp) {f : Fid} :
    sp.blocked f = true ↔ ∃ op ep, s.pc f = .waiting op ep ∧ s.c.ready f = false := by
  rw [blocked_iff]
  simp only [m.wait, hi.w.mem_live_iff]
  constructor
  · rintro ⟨i, r, h1, -, h3, h4⟩
    cases hp : s.pc f <;> simp only [hp, regOf, Option.map_eq_some_iff, reduceCtorEq] at h1
    · exact ⟨_, _, rfl, h4⟩
    · obtain ⟨i, -, rfl⟩ := h1; simp at h3
  · rintro ⟨op, ep, h1, h2⟩
    obtain ⟨i, hs⟩ := hi.sd f op ep (Or.inl h1)
    exact ⟨i, ⟨i, ep, op.dl, false⟩, by simp [h1, regOf, hs], rfl, rfl, h2⟩

theorem sim_init {c : Nat} (h : 2 ≤ c) : Sim c (init c : State V) Spec.init :=
  ⟨Ring.rep_make h, rfl, rfl, fun _ => rfl, fun _ => rfl⟩

theorem liveList_nil (c : Ctxs) : liveList c [] = [] := rfl

theorem sim_apply {cap : Nat} {s : State V} {sp : Spec V} (hi : Inv s) (m : Sim cap s sp) {f : Fid} {op : Op V}
    (hp : s.pc f = .entry op) :
    ∃ sp', sp.run cap (apply s f op (cs s op)).2 = some sp' ∧ Sim cap (apply s f op (cs s op)).1 sp' := by
  have hcall : sp.inCall f = some op := by rw [m.call, hp]; rfl
  have hnb : sp.blocked f = false := by
    rw [← Bool.not_eq_true, sim_blocked hi m]; rintro ⟨op', ep, h, -⟩; rw [hp] at h; cases h
  have hemp := Ring.isEmpty_iff m.rep
  have hful := Ring.isFull_iff m.rep
  have hlt := m.rep.lt
  rw [m.cap] at hful hlt
  have hcl := m.cl
  -- the end of a call that leaves the channel alone
  have quiet : ∀ (r : Res V), sp.ret cap f op r [] s.now = some (sp.finish f) →
      ∃ sp', sp.run cap (apply s f op (.ret r)).2 = some sp' ∧ Sim cap (apply s f op (.ret r)).1 sp' := by
    intro r hr
    refine ⟨sp.finish f, ?_, m.rep, m.cap, m.cl, ?_, m.wait⟩
    · simp only [apply, Spec.run_one, Spec.next, hcall, hnb, and_self, if_true, hr]
    · intro g; simp only [Spec.finish, apply, upd_apply]; split
      · rfl
      · exact m.call g
  have put : ∀ v, op.value? = some v → s.closed = false → s.ring.isFull = false →
      ∃ sp', sp.run cap (apply s f op (.put v)).2 = some sp' ∧ Sim cap (apply s f op (.put v)).1 sp' := by
    intro v hv hc hf
    have hf' : sp.buf.length < cap - 1 := by
      have : sp.buf.length ≠ cap - 1 := fun h => by simp [hful.2 h] at hf
      omega
    refine ⟨({ sp with buf := sp.buf ++ [v] }.freed .cons).finish f, ?_, ?_, ?_, ?_, ?_, ?_⟩
    · have hw : (notifyOne s.c (s.q .cons)).2.2 = (sp.waiting .cons).head? := by
        rw [hi.w.notifyOne_eq, m.wait]
      simp only [apply, Spec.run_one, Spec.next, hcall, hnb, and_self, if_true, Spec.ret, hv, hw, hf', hcl, hc]
    · exact Ring.rep_put m.rep hf v
    · exact m.cap
    · exact m.cl
    · intro g; simp only [Spec.finish, Spec.freed, apply, upd_apply]; split
      · rfl
      · exact m.call g
    · intro j
      have := hi.w.live_notifyOne (i := .cons) (q' := updQ s.q .cons (notifyOne s.c (s.q .cons)).2.1) (fun _ => rfl) j
      simp only [Spec.finish, Spec.freed, apply, this, m.wait]
  have take : op.isPop = true → s.ring.isEmpty = false →
      ∃ sp', sp.run cap (apply s f op .take).2 = some sp' ∧ Sim cap (apply s f op .take).1 sp' := by
    intro ho he
    cases hb : sp.buf with
    | nil => simp [hemp.2 hb] at he
    | cons x rest =>
      have hrep := m.rep
      rw [hb] at hrep
      obtain ⟨h1, h2⟩ := Ring.rep_take hrep
      refine ⟨({ sp with buf := rest }.freed .prod).finish f, ?_, ?_, ?_, ?_, ?_, ?_⟩
      · have hw : (notifyOne s.c (s.q .prod)).2.2 = (sp.waiting .prod).head? := by
          rw [hi.w.notifyOne_eq, m.wait]
        simp only [apply, Spec.run_one, Spec.next, hcall, hnb, and_self, if_true, Spec.ret, hb, h1, ho, hw]
      · exact h2
      · exact m.cap
      · exact m.cl
      · intro g; simp only [Spec.finish, Spec.freed, apply, upd_apply]; split
        · rfl
        · exact m.call g
      · intro j
        have := hi.w.live_notifyOne (i := .prod) (q' := updQ s.q .prod (notifyOne s.c (s.q .prod)).2.1) (fun _ => rfl) j
        simp only [Spec.finish, Spec.freed, apply, this, m.wait]
  have block : ∀ i, op.side = some i → sp.mayBlock cap op →
      ∃ sp', sp.run cap (apply s f op .block).2 = some sp' ∧ Sim cap (apply s f op .block).1 sp' := by
    intro i hs hb
    refine ⟨{ sp with waiting := fun j => if j = i then sp.waiting i ++ [f] else sp.waiting j,
                      released := upd sp.released f false }, ?_, ?_⟩
    · simp only [apply, hs, Spec.run_one, Spec.next, hcall, hnb, hb, and_self, if_true]
    · simp only [apply, hs]
      refine ⟨m.rep, m.cap, m.cl, ?_, ?_⟩
      · intro g; simp only [upd_apply]; split
        · subst_vars; simp [hcall, opOf]
        · exact m.call g
      · intro j
        have := hi.w.live_enqueue (f := f) (i := i) (q' := updQ s.q i (enqueue s.c (s.q i) f).2)
          (by simp [hp, regOf]) (fun _ => rfl) j
        simp only [this, m.wait]
  cases op with
  | push v dl =>
    simp only [cs, pushCS]
    split
    · rename_i h; exact quiet _ (by simp [Spec.ret, hcl, h, Op.value?])
    · rename_i h
      simp only [Bool.not_eq_true] at h
      split
      · rename_i hf; exact block .prod rfl ⟨by rw [hcl, h], Or.inl ⟨rfl, hful.1 hf⟩⟩
      · rename_i hf; exact put v rfl h (by simpa using hf)
  | tryPush v =>
    simp only [cs, tryPushCS]
    split
    · rename_i h; exact quiet _ (by simp [Spec.ret, hcl, h, Op.value?])
    · rename_i h
      simp only [Bool.not_eq_true] at h
      split
      · rename_i hf; exact quiet _ (by simp [Spec.ret, hcl, h, Op.isTryPush, hful.1 hf])
      · rename_i hf; exact put v rfl h (by simpa using hf)
  | pop dl =>
    simp only [cs, popCS]
    split
    · rename_i he
      split
      · rename_i h; exact quiet _ (by simp [Spec.ret, hcl, h, Op.isPop, hemp.1 he])
      · rename_i h
        simp only [Bool.not_eq_true] at h
        exact block .cons rfl ⟨by rw [hcl, h], Or.inr ⟨rfl, hemp.1 he⟩⟩
    · rename_i he; exact take rfl (by simpa using he)
  | valuePop =>
    simp only [cs, valuePopCS]
    split
    · rename_i he
      split
      · rename_i h; exact quiet _ (by simp [Spec.ret, hcl, h, hemp.1 he])
      · rename_i h
        simp only [Bool.not_eq_true] at h
        exact block .cons rfl ⟨by rw [hcl, h], Or.inr ⟨rfl, hemp.1 he⟩⟩
    · rename_i he; exact take rfl (by simpa using he)
  | tryPop =>
    simp only [cs, tryPopCS]
    split
    · rename_i he
      split
      · rename_i h; exact quiet _ (by simp [Spec.ret, hcl, h, Op.isPop, hemp.1 he])
      · rename_i h; simp only [Bool.not_eq_true] at h
        exact quiet _ (by simp [Spec.ret, hcl, h, hemp.1 he])
    · rename_i he; exact take rfl (by simpa using he)
  | isClosed =>
    simp only [cs]; exact quiet _ (by simp [Spec.ret, hcl])
  | close =>
    simp only [cs, closeCS]
    split
    · rename_i h; exact quiet _ (by simp [Spec.ret, hcl, h])
    · rename_i h
      simp only [Bool.not_eq_true] at h
      have h1 := hi.w.notifyAll .prod (q' := updQ s.q .prod []) (fun _ => rfl)
      have hq : updQ s.q .prod [] .cons = s.q .cons := by simp [updQ]
      have e1 := hi.w.notifyAll_eq .prod
      have e2 := h1.notifyAll_eq .cons
      have e3 := hi.w.live_notifyAll (i := .prod) (q' := updQ s.q .prod []) (fun _ => rfl) .cons
      rw [hq] at e2 e3
      simp only [reduceCtorEq, if_false] at e3
      rw [e3] at e2
      let rel := release sp.released (sp.waiting .prod ++ sp.waiting .cons)
      refine ⟨{ sp with closed := true, waiting := fun _ => [], released := rel }.finish f, ?_, ?_⟩
      · simp only [apply, Spec.run_one, Spec.next, hcall, hnb, and_self, if_true, Spec.ret, hcl, h, e1, e2, ← m.wait,
          Bool.false_eq_true, if_false, rel]
      · simp only [apply]
        refine ⟨m.rep, m.cap, rfl, ?_, fun _ => rfl⟩
        intro g; simp only [Spec.finish, upd_apply]; split
        · rfl
        · exact m.call g

theorem sim_step {cap : Nat} {s s' : State V} {o : List (Obs V)} {e : Event V} {sp : Spec V} (hi : Inv s)
    (m : Sim cap s sp) (hs : step s e = some (s', o)) : ∃ sp', sp.run cap o = some sp' ∧ Sim cap s' sp' := by
  cases e with
  | call f op =>
    simp only [step] at hs
    split at hs <;> simp only [Option.some.injEq, Prod.mk.injEq, reduceCtorEq] at hs
    rename_i hp
    obtain ⟨rfl, rfl⟩ := hs
    refine ⟨{ sp with inCall := upd sp.inCall f (some op) }, ?_, m.rep, m.cap, m.cl, ?_, m.wait⟩
    · have : sp.inCall f = none := by rw [m.call, hp]; rfl
      simp [Spec.run_one, Spec.next, this]
    · intro g; simp only [upd_apply]; split
      · rfl
      · exact m.call g
  | tick n =>
    simp only [step, Option.some.injEq, Prod.mk.injEq] at hs
    obtain ⟨rfl, rfl⟩ := hs
    exact ⟨sp, rfl, m.rep, m.cap, m.cl, m.call, m.wait⟩
  | elsewhere f n =>
    simp only [step] at hs
    split at hs <;> simp only [Option.some.injEq, Prod.mk.injEq, reduceCtorEq] at hs
    rename_i hp
    obtain ⟨rfl, rfl⟩ := hs
    exact ⟨sp, rfl, m.rep, m.cap, m.cl, m.call, fun j => by
      simp only; rw [hi.w.live_elsewhere (by simp [hp, regOf]) n j, m.wait]⟩
  | timer f =>
    simp only [step] at hs
    split at hs <;> try simp only [reduceCtorEq] at hs
    rename_i op ep hp
    split at hs <;> try simp only [reduceCtorEq] at hs
    rename_i d hd
    split at hs <;> simp only [Option.some.injEq, Prod.mk.injEq, reduceCtorEq] at hs
    rename_i hle
    obtain ⟨rfl, rfl⟩ := hs
    obtain ⟨i, hsd⟩ := hi.sd f op ep (Or.inl hp)
    have hreg : regOf (s.pc f) = some ⟨i, ep, op.dl, false⟩ := by simp [hp, regOf, hsd]
    have hlv := hi.w.live_timer (f := f) (r := ⟨i, ep, op.dl, false⟩) hreg
    have hok := WInv.wake_ok (c := s.c) (f := f) (⟨i, ep, op.dl, false⟩ : WReg Side)
    simp only at hlv hok
    by_cases hl : s.c.epoch f = ep
    · have hnr := (hi.w.not_ready_iff hreg rfl).2 hl
      have hb := (sim_blocked hi m).2 ⟨op, ep, hp, hnr⟩
      refine ⟨{ sp with waiting := fun j => (sp.waiting j).filter (· ≠ f) }, ?_, m.rep, m.cap, m.cl, m.call, ?_⟩
      · have hc : sp.inCall f = some op := by rw [m.call, hp]; rfl
        simp [hok, hl, Spec.run_one, Spec.next, hc, hd, hle, hb]
      · intro j; simp only [hlv j, m.wait]
    · refine ⟨sp, by simp [hok, hl, Spec.run], m.rep, m.cap, m.cl, m.call, ?_⟩
      intro j; simp only [hlv j, m.wait]
      symm; rw [List.filter_eq_self]
      intro g hg; simp only [ne_eq, decide_eq_true_eq]; rintro rfl
      obtain ⟨r, h1, -, h3⟩ := hi.w.mem_live.1 hg
      simp only [hreg, Option.some.injEq] at h1; subst h1; exact hl h3
  | fail f =>
    simp only [step, runFail] at hs
    split at hs <;> try simp only [reduceCtorEq] at hs
    rename_i op hp
    have hc : sp.inCall f = some op := by rw [m.call, hp]; rfl
    have hnb : sp.blocked f = false := by
      rw [← Bool.not_eq_true, sim_blocked hi m]; rintro ⟨op', ep', h, -⟩; rw [hp] at h; cases h
    have hemp := Ring.isEmpty_iff m.rep
    have hful := Ring.isFull_iff m.rep
    have hlt := m.rep.lt
    rw [m.cap] at hful hlt
    have hcl := m.cl
    have done_ : ((op.value?.isSome ∧ sp.closed = false ∧ sp.buf.length < cap - 1) ∨ (op.isPop ∧ sp.buf ≠ [])) →
        ∃ sp', sp.run cap [.ret f op .failed [] s.now] = some sp' ∧ Sim cap { s with pc := upd s.pc f .idle } sp' := by
      intro hx
      refine ⟨{ sp.finish f with swallowed := sp.swallowed || sp.released f }, ?_, m.rep, m.cap, m.cl, ?_, m.wait⟩
      · simp only [Spec.run_one, Spec.next, hc, hnb, and_self, if_true, Spec.ret, true_and, if_pos hx]
      · intro g; simp only [Spec.finish, upd_apply]; split
        · rfl
        · exact m.call g
    have hput : ∀ v, cs s op = .put v → op.value?.isSome ∧ s.closed = false ∧ s.ring.isFull = false := by
      intro v h
      cases op <;> simp only [cs, pushCS, tryPushCS, popCS, valuePopCS, tryPopCS, closeCS] at h <;>
        simp only [Op.value?] <;> grind
    have htake : cs s op = .take → op.isPop ∧ s.ring.isEmpty = false := by
      intro h
      cases op <;> simp only [cs, pushCS, tryPushCS, popCS, valuePopCS, tryPopCS, closeCS] at h <;>
        simp only [Op.isPop] <;> grind
    split at hs <;> simp only [Option.some.injEq, Prod.mk.injEq, reduceCtorEq] at hs <;> obtain ⟨rfl, rfl⟩ := hs
    · rename_i v hv
      obtain ⟨h1, h2, h3⟩ := hput v hv
      refine done_ (Or.inl ⟨h1, by rw [hcl, h2], ?_⟩)
      have : sp.buf.length ≠ cap - 1 := fun h => by simp [hful.2 h] at h3
      omega
    · rename_i hv
      obtain ⟨h1, h2⟩ := htake hv
      exact done_ (Or.inr ⟨h1, fun h => by simp [hemp.2 h] at h2⟩)
  | run f =>
    simp only [step, run] at hs
    split at hs
    · cases hs
    · rename_i op hp
      simp only [Option.some.injEq] at hs
      have := sim_apply hi m hp
      rw [hs] at this; exact this
    · rename_i op ep hp
      split at hs <;> try simp only [reduceCtorEq] at hs
      have quiet : ∀ p, opOf p = some op → Sim cap { s with c := consumeReady s.c f, pc := upd s.pc f p } sp := by
        intro p ho
        refine ⟨m.rep, m.cap, m.cl, ?_, fun j => by simp only [WInv.live_consume]; exact m.wait j⟩
        intro g; simp only [upd_apply]; split
        · subst_vars; rw [m.call, hp, ho]; rfl
        · exact m.call g
      split at hs
      · simp only [Option.some.injEq, Prod.mk.injEq] at hs
        obtain ⟨rfl, rfl⟩ := hs
        exact ⟨sp, rfl, quiet _ rfl⟩
      · split at hs <;> simp only [Option.some.injEq, Prod.mk.injEq] at hs <;> obtain ⟨rfl, rfl⟩ := hs
        · exact ⟨sp, rfl, quiet _ rfl⟩
        · exact ⟨sp, rfl, quiet _ rfl⟩
    · rename_i op ep hp
      split at hs <;> simp only [Option.some.injEq, Prod.mk.injEq, reduceCtorEq] at hs
      rename_i i hsd
      obtain ⟨rfl, rfl⟩ := hs
      have hreg : regOf (s.pc f) = some ⟨i, ep, op.dl, true⟩ := by simp [hp, regOf, hsd]
      obtain ⟨-, -, d, hd, hle⟩ := hi.w.late f ⟨i, ep, op.dl, true⟩ hreg rfl
      simp only at hd
      have hc : sp.inCall f = some op := by rw [m.call, hp]; rfl
      have hnb : sp.blocked f = false := by
        rw [← Bool.not_eq_true, sim_blocked hi m]; rintro ⟨op', ep', h, -⟩; rw [hp] at h; cases h
      refine ⟨{ sp.finish f with swallowed := sp.swallowed || sp.released f }, ?_, m.rep, m.cap, m.cl, ?_, ?_⟩
      · simp [Spec.run_one, Spec.next, hc, hnb, Spec.ret, hd, hle]
      · intro g; simp only [Spec.finish, upd_apply]; split
        · rfl
        · exact m.call g
      · intro j
        have := hi.w.live_unlink (f := f) (r := ⟨i, ep, op.dl, true⟩) hreg rfl
          (q' := updQ s.q i ((s.q i).filter (· ≠ ⟨f, ep⟩))) (fun _ => rfl) j
        simp only [Spec.finish, this, m.wait]

theorem refine_sim {cap : Nat} (hc : 2 ≤ cap) {s : State V} {tr : List (Obs V)} (h : Reach step (init cap) s tr) :
    ∃ sp, Spec.init.run cap tr = some sp ∧ Sim cap s sp := by
  refine Reach.inv (fun s tr => ∃ sp, Spec.init.run cap tr = some sp ∧ Sim cap s sp) ⟨_, rfl, sim_init hc⟩ ?_ h
  rintro s tr e s' o hr ⟨sp, h1, h2⟩ hs
  obtain ⟨sp', h3, h4⟩ := sim_step (reach_inv hr) h2 hs
  exact ⟨sp', by rw [Spec.run_append h1]; exact h3, h4⟩

/-! ## Facts about the specification alone -/

/-- At least `n` fibers have been released from side `i` and are still to act. -/
def Spec.Enough (sp : Spec V) (i : Side) (n : Nat) : Prop :=
  ∃ l : List Fid, l.Nodup ∧ (∀ g ∈ l, sp.released g = true ∧ ∃ op, sp.inCall g = some op ∧ op.side = some i) ∧
    n ≤ l.length

structure SInv (cap : Nat) (sp : Spec V) : Prop where
  len : sp.buf.length ≤ cap - 1
  nd  : ∀ i, (sp.waiting i).Nodup
  wt  : ∀ f i, f ∈ sp.waiting i → ∃ op, sp.inCall f = some op ∧ op.side = some i
  rl  : ∀ f, sp.released f = true → (∃ op i, sp.inCall f = some op ∧ op.side = some i) ∧ sp.blocked f = false
  cl  : sp.closed = true → ∀ i, sp.waiting i = []
  cc  : sp.swallowed = false → sp.waiting .cons ≠ [] → sp.Enough .cons sp.buf.length
  cp  : sp.swallowed = false → sp.waiting .prod ≠ [] → sp.Enough .prod (cap - 1 - sp.buf.length)

theorem Spec.Enough.zero (sp : Spec V) (i : Side) : sp.Enough i 0 := ⟨[], by simp, by simp, by simp⟩

theorem Spec.Enough.finish {sp : Spec V} {i : Side} {n : Nat} (h : sp.Enough i (n + 1)) (f : Fid) :
    (sp.finish f).Enough i n := by
  obtain ⟨l, h1, h2, h3⟩ := h
  refine ⟨l.filter (· ≠ f), h1.sublist List.filter_sublist, ?_, ?_⟩
  · intro g hg
    simp only [List.mem_filter, ne_eq, decide_eq_true_eq] at hg
    simpa [Spec.finish, upd_apply, hg.2] using h2 g hg.1
  · have := List.length_eq_countP_add_countP (fun g => decide (g ≠ f)) (l := l)
    rw [← List.countP_eq_length_filter]
    have h4 : l.countP (fun g => decide ¬ (decide (g ≠ f) = true)) ≤ 1 := by
      have : l.countP (fun g => decide ¬ (decide (g ≠ f) = true)) = l.count f := by
        rw [List.count_eq_countP]; refine List.countP_congr ?_; intro g _; simp
      rw [this]; exact List.nodup_iff_count.1 h1 f
    omega

theorem Spec.Enough.finish' {sp : Spec V} {i : Side} {n : Nat} (h : sp.Enough i n) {f : Fid} {op : Op V}
    (hf : sp.inCall f = some op) (hne : sp.released f = false ∨ op.side ≠ some i) : (sp.finish f).Enough i n := by
  obtain ⟨l, h1, h2, h3⟩ := h
  refine ⟨l, h1, ?_, h3⟩
  intro g hg
  obtain ⟨a, op', b, c⟩ := h2 g hg
  have : g ≠ f := by
    rintro rfl
    rw [hf] at b; cases b
    rcases hne with h | h
    · simp [a] at h
    · exact h c
  simpa [Spec.finish, upd_apply, this] using ⟨a, op', b, c⟩

theorem Spec.Enough.freed {sp : Spec V} {i : Side} {n : Nat} (h : sp.Enough i n) {f : Fid} {fs : List Fid} {op : Op V}
    (hw : sp.waiting i = f :: fs) (hr : sp.released f = false) (ho : sp.inCall f = some op) (hs : op.side = some i) :
    (sp.freed i).Enough i (n + 1) := by
  obtain ⟨l, h1, h2, h3⟩ := h
  refine ⟨f :: l, ?_, ?_, by simp; omega⟩
  · rw [List.nodup_cons]; refine ⟨?_, h1⟩; intro hm; simp [(h2 f hm).1] at hr
  · intro g hg
    simp only [List.mem_cons] at hg
    rcases hg with rfl | hg
    · exact ⟨by simp [Spec.freed, release, hw], op, ho, hs⟩
    · obtain ⟨a, b⟩ := h2 g hg; exact ⟨by simp [Spec.freed, release, a], b⟩

theorem Spec.Enough.mono {sp sp' : Spec V} {i : Side} {n m : Nat} (h : sp.Enough i n) (hm : m ≤ n)
    (hr : ∀ g, sp.released g = true → sp'.released g = true) (hc : ∀ g, sp'.inCall g = sp.inCall g) : sp'.Enough i m := by
  obtain ⟨l, h1, h2, h3⟩ := h
  exact ⟨l, h1, fun g hg => ⟨hr g (h2 g hg).1, by rw [hc]; exact (h2 g hg).2⟩, by omega⟩

theorem SInv.init {cap : Nat} : SInv cap (Spec.init : Spec V) := by
  constructor <;> simp [Spec.init]

/-- Ending a call that left the queue and the waiting lists alone. -/
theorem SInv.finish {cap : Nat} {sp : Spec V} (h : SInv cap sp) {f : Fid} {op : Op V} (ho : sp.inCall f = some op)
    (hb : sp.blocked f = false) (hc : sp.closed = true ∨ op.side = none ∨ sp.released f = false) :
    SInv cap (sp.finish f) := by
  have hnw : ∀ i, f ∉ sp.waiting i := by
    intro i hi; have := blocked_iff.2 ⟨i, hi⟩; simp [hb] at this
  obtain ⟨len, nd, wt, rl, cl, cc, cp⟩ := h
  refine ⟨len, nd, ?_, ?_, cl, ?_, ?_⟩
  · intro g i hg
    have : g ≠ f := by rintro rfl; exact hnw i hg
    simpa [Spec.finish, upd_apply, this] using wt g i hg
  · intro g hg
    have : g ≠ f := by rintro rfl; simp [Spec.finish] at hg
    simp only [Spec.finish, upd_apply, this, if_false] at hg ⊢
    exact rl g hg
  · intro hsw hw
    rcases hc with hc | hc | hc
    · exact absurd (cl hc _) hw
    · exact (cc hsw hw).finish' ho (Or.inr (by simp [hc]))
    · exact (cc hsw hw).finish' ho (Or.inl hc)
  · intro hsw hw
    rcases hc with hc | hc | hc
    · exact absurd (cl hc _) hw
    · exact (cp hsw hw).finish' ho (Or.inr (by simp [hc]))
    · exact (cp hsw hw).finish' ho (Or.inl hc)

theorem blocked_freed {sp : Spec V} {i : Side} {g : Fid} (h : (sp.freed i).blocked g = true) : sp.blocked g = true := by
  obtain ⟨j, hj⟩ := blocked_iff.1 h
  simp only [Spec.freed] at hj
  split at hj
  · exact blocked_iff.2 ⟨i, List.mem_of_mem_tail hj⟩
  · exact blocked_iff.2 ⟨j, hj⟩

theorem sinv_next {cap : Nat} {sp sp' : Spec V} {o : Obs V} (h : SInv cap sp) (hn : sp.next cap o = some sp') :
    SInv cap sp' := by
  have hinv := h
  obtain ⟨len, nd, wt, rl, cl, cc, cp⟩ := h
  cases o with
  | called f op =>
    simp only [Spec.next] at hn
    split at hn <;> simp only [Option.some.injEq, reduceCtorEq] at hn
    rename_i hf
    subst hn
    have hne : ∀ g op', sp.inCall g = some op' → g ≠ f := by rintro g op' hg rfl; rw [hf] at hg; cases hg
    have hen : ∀ i n, sp.Enough i n → Spec.Enough { sp with inCall := upd sp.inCall f (some op) } i n := by
      rintro i n ⟨l, h1, h2, h3⟩
      refine ⟨l, h1, ?_, h3⟩
      intro g hg
      obtain ⟨a, op', b, c⟩ := h2 g hg
      exact ⟨a, op', by simp [upd_apply, hne g op' b, b], c⟩
    refine ⟨len, nd, ?_, ?_, cl, fun a b => hen _ _ (cc a b), fun a b => hen _ _ (cp a b)⟩
    · intro g i hg
      obtain ⟨op', a, b⟩ := wt g i hg
      exact ⟨op', by simp [upd_apply, hne g op' a, a], b⟩
    · intro g hg
      obtain ⟨⟨op', i, a, b⟩, c⟩ := rl g hg
      exact ⟨⟨op', i, by simp [upd_apply, hne g op' a, a], b⟩, c⟩
  | blocks f =>
    simp only [Spec.next] at hn
    split at hn
    · cases hn
    rename_i op ho
    split at hn
    · cases hn
    rename_i i hi
    split at hn <;> simp only [Option.some.injEq, reduceCtorEq] at hn
    rename_i hc
    obtain ⟨⟨hcl, hm⟩, hb⟩ := hc
    have hnw : ∀ i, f ∉ sp.waiting i := by
      intro i hi; have := blocked_iff.2 ⟨i, hi⟩; simp [hb] at this
    -- the other side's released fibers do not include `f`
    have hen : ∀ j n, j ≠ i → sp.Enough j n → Spec.Enough sp' j n := by
      subst hn
      rintro j n hj ⟨l, h1, h2, h3⟩
      refine ⟨l, h1, ?_, h3⟩
      intro g hg
      obtain ⟨a, op', b, c⟩ := h2 g hg
      have : g ≠ f := by rintro rfl; rw [ho] at b; cases b; rw [hi] at c; cases c; exact hj rfl
      exact ⟨by simp [upd_apply, this, a], op', b, c⟩
    subst hn
    refine ⟨len, ?_, ?_, ?_, ?_, ?_, ?_⟩
    · intro j; simp only; split
      · rw [List.nodup_append]; refine ⟨nd i, by simp, ?_⟩
        intro x hx y hy; simp only [List.mem_singleton] at hy; subst hy
        rintro rfl; exact hnw i hx
      · exact nd j
    · intro g j hg
      simp only at hg
      split at hg
      · simp only [List.mem_append, List.mem_singleton] at hg
        subst_vars
        rcases hg with hg | rfl
        · exact wt g _ hg
        · exact ⟨op, ho, hi⟩
      · exact wt g j hg
    · intro g hg
      simp only [upd_apply] at hg
      split at hg
      · cases hg
      · rename_i hgf
        obtain ⟨a, b⟩ := rl g hg
        refine ⟨a, ?_⟩
        rw [← Bool.not_eq_true, blocked_iff] at b ⊢
        rintro ⟨j, hj⟩
        simp only at hj
        split at hj
        · simp only [List.mem_append, List.mem_singleton] at hj
          rcases hj with hj | hj
          · exact b ⟨_, hj⟩
          · exact hgf hj
        · exact b ⟨_, hj⟩
    · intro hx; simp [hcl] at hx
    · intro hsw hw
      rcases hm with ⟨h1, h2⟩ | ⟨h1, h2⟩ <;> rw [hi] at h1 <;> cases h1
      · exact hen .cons _ (by simp) (cc hsw hw)
      · simp only [h2]; exact Spec.Enough.zero _ _
    · intro hsw hw
      rcases hm with ⟨h1, h2⟩ | ⟨h1, h2⟩ <;> rw [hi] at h1 <;> cases h1
      · simp only [h2, Nat.sub_self]; exact Spec.Enough.zero _ _
      · exact hen .prod _ (by simp) (cp hsw hw)
  | expired f t =>
    simp only [Spec.next] at hn
    split at hn
    · cases hn
    split at hn
    · split at hn <;> simp only [Option.some.injEq, reduceCtorEq] at hn
      subst hn
      refine ⟨len, fun i => (nd i).sublist List.filter_sublist, ?_, ?_, ?_, ?_, ?_⟩
      · intro g i hg; exact wt g i (List.mem_filter.1 hg).1
      · intro g hg
        obtain ⟨a, b⟩ := rl g hg
        refine ⟨a, ?_⟩
        rw [← Bool.not_eq_true, blocked_iff] at b ⊢
        rintro ⟨j, hj⟩; exact b ⟨j, (List.mem_filter.1 hj).1⟩
      · intro hc i; simp [cl hc i]
      · intro hsw hw
        exact (cc hsw (by rintro hx; simp [hx] at hw)).mono (Nat.le_refl _) (fun _ => id) (fun _ => rfl)
      · intro hsw hw
        exact (cp hsw (by rintro hx; simp [hx] at hw)).mono (Nat.le_refl _) (fun _ => id) (fun _ => rfl)
    · cases hn
  | ret f op r woken t =>
    simp only [Spec.next] at hn
    split at hn
    case isFalse => cases hn
    rename_i hc
    obtain ⟨ho, hb⟩ := hc
    have hnw : ∀ i, f ∉ sp.waiting i := by
      intro i hi; have := blocked_iff.2 ⟨i, hi⟩; simp [hb] at this
    -- a successful operation of `f` which frees something for side `i`
    have succ : ∀ (i : Side) (b : List V), op.side = none ∨ op.side = some i.other → b.length ≤ cap - 1 →
        sp.closed = false ∨ True →
        (sp.waiting .cons ≠ [] → sp.swallowed = false → (({ sp with buf := b }.freed i).finish f).waiting .cons ≠ [] →
          (({ sp with buf := b }.freed i).finish f).Enough .cons b.length) →
        (sp.waiting .prod ≠ [] → sp.swallowed = false → (({ sp with buf := b }.freed i).finish f).waiting .prod ≠ [] →
          (({ sp with buf := b }.freed i).finish f).Enough .prod (cap - 1 - b.length)) →
        SInv cap (({ sp with buf := b }.freed i).finish f) := by
      intro i b hs hlen _ h1 h2
      have sub : ∀ j g, g ∈ (({ sp with buf := b }.freed i).finish f).waiting j → g ∈ sp.waiting j := by
        intro j g hg
        simp only [Spec.finish, Spec.freed] at hg
        split at hg
        · subst_vars; exact List.mem_of_mem_tail hg
        · exact hg
      have nil : ∀ j, sp.waiting j = [] → (({ sp with buf := b }.freed i).finish f).waiting j = [] := by
        intro j hj
        simp only [Spec.finish, Spec.freed]
        split
        · subst_vars; simp [hj]
        · exact hj
      refine ⟨hlen, ?_, ?_, ?_, ?_, ?_, ?_⟩
      · intro j; simp only [Spec.finish, Spec.freed]; split
        · subst_vars; exact (nd _).sublist (List.tail_sublist _)
        · exact nd j
      · intro g j hg
        have hg' := sub j g hg
        have : g ≠ f := by rintro rfl; exact hnw j hg'
        simpa [Spec.finish, Spec.freed, upd_apply, this] using wt g j hg'
      · intro g hg
        have hgf : g ≠ f := by rintro rfl; simp [Spec.finish] at hg
        simp only [Spec.finish, Spec.freed, upd_apply, hgf, if_false, release, Bool.or_eq_true, decide_eq_true_eq] at hg
        have hcall : (({ sp with buf := b }.freed i).finish f).inCall g = sp.inCall g := by
          simp [Spec.finish, Spec.freed, upd_apply, hgf]
        rw [hcall]
        rcases hg with hg | hg
        · obtain ⟨a, c⟩ := rl g hg
          refine ⟨a, ?_⟩
          rw [← Bool.not_eq_true, blocked_iff] at c ⊢
          rintro ⟨j, hj⟩; exact c ⟨j, sub j g hj⟩
        · cases hw : sp.waiting i with
          | nil => simp [hw] at hg
          | cons x xs =>
            simp only [hw, List.head?_cons, Option.toList_some, List.mem_singleton] at hg
            subst hg
            obtain ⟨op', a, c⟩ := wt g i (by simp [hw])
            refine ⟨⟨op', i, a, c⟩, ?_⟩
            rw [← Bool.not_eq_true, blocked_iff]
            rintro ⟨j, hj⟩
            have hj' := sub j g hj
            obtain ⟨op'', a', c'⟩ := wt g j hj'
            rw [a] at a'; cases a'; rw [c] at c'; cases c'
            have hnd := nd i
            rw [hw, List.nodup_cons] at hnd
            simp only [Spec.finish, Spec.freed, if_true, hw, List.tail_cons] at hj
            exact hnd.1 hj
      · intro hcl j; exact nil j (cl hcl j)
      · intro hsw hw; exact h1 (fun hx => hw (nil _ hx)) hsw hw
      · intro hsw hw; exact h2 (fun hx => hw (nil _ hx)) hsw hw
    -- a call of `f` ends without having used what it may have been released for
    have giveUp : SInv cap { sp.finish f with swallowed := sp.swallowed || sp.released f } := by
      cases hrf : sp.released f with
      | false =>
        have := hinv.finish ho hb (Or.inr (Or.inr hrf))
        obtain ⟨a1, a2, a3, a4, a5, a6, a7⟩ := this
        refine ⟨a1, a2, a3, a4, a5, ?_, ?_⟩
        · intro hsw; simp only [Bool.or_false] at hsw; exact a6 hsw
        · intro hsw; simp only [Bool.or_false] at hsw; exact a7 hsw
      | true =>
        refine ⟨len, nd, ?_, ?_, cl, by simp, by simp⟩
        · intro g i hg
          have : g ≠ f := by rintro rfl; exact hnw i hg
          simpa [Spec.finish, upd_apply, this] using wt g i hg
        · intro g hg
          have : g ≠ f := by rintro rfl; simp [Spec.finish] at hg
          simp only [Spec.finish, upd_apply, this, if_false] at hg ⊢
          exact rl g hg
    unfold Spec.ret at hn
    split at hn
    · -- pushed
      split at hn
      · rename_i v hv
        split at hn <;> simp only [Option.some.injEq, reduceCtorEq] at hn
        rename_i hx
        obtain ⟨hcl, hlen, -⟩ := hx
        subst hn
        have hside : op.side = none ∨ op.side = some .prod := by
          cases op <;> simp [Op.value?, Op.side] at hv ⊢
        refine succ .cons _ hside (by simp; omega) (Or.inl hcl) ?_ ?_
        · intro hw hsw hw'
          cases hwc : sp.waiting .cons with
          | nil => exact absurd hwc hw
          | cons x xs =>
            obtain ⟨opx, a, c⟩ := wt x .cons (by simp [hwc])
            have hrx : sp.released x = false := by
              rw [← Bool.not_eq_true]; intro hrx
              have := (rl x hrx).2
              have := blocked_iff.2 ⟨.cons, (by simp [hwc] : x ∈ sp.waiting .cons)⟩
              simp_all
            have e1 : Spec.Enough { sp with buf := sp.buf ++ [v] } .cons sp.buf.length :=
              (cc hsw hw).mono (Nat.le_refl _) (fun _ => id) (fun _ => rfl)
            have e2 := e1.freed (f := x) (fs := xs) (op := opx) hwc hrx a c
            have e3 := e2.finish' (f := f) (op := op) ho (Or.inr (by rcases hside with h | h <;> simp [h]))
            simpa using e3
        · intro hw hsw hw'
          have e1 : Spec.Enough ({ sp with buf := sp.buf ++ [v] }.freed .cons) .prod (cap - 1 - sp.buf.length) :=
            (cp hsw hw).mono (Nat.le_refl _) (fun g hg => by simp [Spec.freed, release, hg]) (fun _ => rfl)
          have : cap - 1 - sp.buf.length = (cap - 1 - (sp.buf ++ [v]).length) + 1 := by simp; omega
          rw [this] at e1
          exact e1.finish f
      · cases hn
    · -- popped
      rename_i v
      split at hn
      · rename_i x rest hbuf
        split at hn <;> simp only [Option.some.injEq, reduceCtorEq] at hn
        rename_i hx
        obtain ⟨hpop, rfl, -⟩ := hx
        subst hn
        have hside : op.side = none ∨ op.side = some .cons := by
          cases op <;> simp [Op.isPop, Op.side] at hpop ⊢
        have hl : rest.length + 1 ≤ cap - 1 := by simpa [hbuf] using len
        refine succ .prod _ hside (by omega) (Or.inr trivial) ?_ ?_
        · intro hw hsw hw'
          have e1 : Spec.Enough ({ sp with buf := rest }.freed .prod) .cons (rest.length + 1) :=
            (cc hsw hw).mono (by simp [hbuf]) (fun g hg => by simp [Spec.freed, release, hg]) (fun _ => rfl)
          exact e1.finish f
        · intro hw hsw hw'
          cases hwc : sp.waiting .prod with
          | nil => exact absurd hwc hw
          | cons y ys =>
            obtain ⟨opx, a, c⟩ := wt y .prod (by simp [hwc])
            have hrx : sp.released y = false := by
              rw [← Bool.not_eq_true]; intro hrx
              have := (rl y hrx).2
              have := blocked_iff.2 ⟨.prod, (by simp [hwc] : y ∈ sp.waiting .prod)⟩
              simp_all
            have e1 : Spec.Enough { sp with buf := rest } .prod (cap - 1 - sp.buf.length) :=
              (cp hsw hw).mono (Nat.le_refl _) (fun _ => id) (fun _ => rfl)
            have e2 := e1.freed (f := y) (fs := ys) (op := opx) hwc hrx a c
            have e3 := e2.finish' (f := f) (op := op) ho (Or.inr (by rcases hside with h | h <;> simp [h]))
            have : cap - 1 - sp.buf.length + 1 = cap - 1 - rest.length := by simp [hbuf]; omega
            rwa [this] at e3
      · cases hn
    · cases hn
    · -- closed
      split at hn <;> simp only [Option.some.injEq, reduceCtorEq] at hn
      rename_i hx; subst hn
      exact hinv.finish ho hb (Or.inl hx.2.1)
    · split at hn <;> simp only [Option.some.injEq, reduceCtorEq] at hn
      rename_i hx; subst hn
      exact hinv.finish ho hb (Or.inl hx.2.1)
    · -- failed
      split at hn <;> simp only [Option.some.injEq, reduceCtorEq] at hn
      subst hn
      exact giveUp
    · split at hn <;> simp only [Option.some.injEq, reduceCtorEq] at hn
      rename_i hx; subst hn
      refine hinv.finish ho hb (Or.inr (Or.inl ?_))
      have := hx.2.2.1; cases op <;> simp [Op.isTryPush, Op.side] at this ⊢
    · split at hn <;> simp only [Option.some.injEq, reduceCtorEq] at hn
      rename_i hx; subst hn
      exact hinv.finish ho hb (Or.inr (Or.inl (by rw [hx.2.2.1]; rfl)))
    · -- timeout
      split at hn
      · split at hn <;> simp only [Option.some.injEq, reduceCtorEq] at hn
        subst hn
        exact giveUp
      · cases hn
    · -- close
      split at hn <;> try simp only [reduceCtorEq] at hn
      rename_i hop
      split at hn
      · rename_i hcl
        split at hn <;> simp only [Option.some.injEq, reduceCtorEq] at hn
        subst hn
        exact hinv.finish ho hb (Or.inl hcl)
      · split at hn <;> simp only [Option.some.injEq, reduceCtorEq] at hn
        rename_i hw
        subst hn
        refine ⟨len, by simp [Spec.finish], by simp [Spec.finish], ?_, by simp [Spec.finish], by simp [Spec.finish],
          by simp [Spec.finish]⟩
        intro g hg
        have hgf : g ≠ f := by rintro rfl; simp [Spec.finish] at hg
        refine ⟨?_, by simp [Spec.finish, Spec.blocked]⟩
        simp only [Spec.finish, upd_apply, hgf, if_false, release, Bool.or_eq_true, decide_eq_true_eq, hw,
          List.mem_append] at hg ⊢
        rcases hg with hg | hg | hg
        · exact (rl g hg).1
        · obtain ⟨op', a, c⟩ := wt g _ hg; exact ⟨op', _, a, c⟩
        · obtain ⟨op', a, c⟩ := wt g _ hg; exact ⟨op', _, a, c⟩
    · split at hn <;> simp only [Option.some.injEq, reduceCtorEq] at hn
      rename_i hx; subst hn
      exact hinv.finish ho hb (Or.inr (Or.inl (by rw [hx.1]; rfl)))

theorem sinv_run {cap : Nat} (tr : List (Obs V)) : ∀ sp sp' : Spec V, SInv cap sp → sp.run cap tr = some sp' →
    SInv cap sp' := by
  induction tr with
  | nil => intro sp sp' h hr; simp only [Spec.run, Option.some.injEq] at hr; subst hr; exact h
  | cons o os ih =>
    intro sp sp' h hr
    simp only [Spec.run] at hr
    split at hr
    · cases hr
    · rename_i sp1 h1; exact ih sp1 sp' (sinv_next h h1) hr

theorem reach_spec {cap : Nat} (hc : 2 ≤ cap) {s : State V} {tr : List (Obs V)} (h : Reach step (init cap) s tr) :
    ∃ sp, Spec.init.run cap tr = some sp ∧ Sim cap s sp ∧ SInv cap sp := by
  obtain ⟨sp, h1, h2⟩ := refine_sim hc h
  exact ⟨sp, h1, h2, sinv_run tr _ _ SInv.init h1⟩

end Verif.BufCh
