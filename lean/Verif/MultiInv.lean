import Verif.MultiSpec

/-!
# Invariants of `Verif/Multi.lean`
-/

namespace Verif.Multi

open Verif.Sch (Cx Tid set set_apply set_same set_other)

variable {s s' : State} {l : Spec}

/-- The context a thread holds outside of all queues. -/
def Pc.held : Pc → Option Cx
  | .aw x | .push x | .put _ x => some x
  | _ => none

def Pc.taken : Pc → Option Cx
  | .got _ x => some x
  | _ => none

/-- The reason why the running fiber is in `pick_next`. -/
def Pc.why : Pc → Option Why
  | .pick r | .lpick r | .steal r _ | .got r _ => some r
  | _ => none

structure Inv (s : State) (l : Spec) : Prop where
  cur : ∀ t, l.cur t = s.run t
  outR : ∀ t x, s.run t = some x → l.status x = .out
  outH : ∀ t x, (s.pc t).held = some x → l.status x = .out
  tak : ∀ t x, (s.pc t).taken = some x ↔ l.status x = .taken t
  qSh : ∀ x, x ∈ s.shared → l.status x = .queued
  qLo : ∀ t x, x ∈ s.loc t → l.status x = .queued
  qu : ∀ x, l.status x = .queued → x ∈ s.shared ∨ ∃ t, x ∈ s.loc t
  unborn : ∀ x, s.st x = .unborn → l.status x = .fresh
  live : ∀ x, s.st x = .live → l.status x = .out ∨ l.status x = .queued ∨ ∃ t, l.status x = .taken t
  blk : ∀ x, s.st x = .blocked → ∃ t, l.status x = .blocked t
  blkW : ∀ x t, l.status x = .blocked t → pinned x = false → x ∈ s.wq t
  blkP : ∀ x t, l.status x = .blocked t → pinned x = true → x = .main t
  gone : ∀ x, s.st x = .done ∨ s.st x = .exiting → l.status x = .gone
  out : ∀ x, l.status x = .out → (∃ t, s.run t = some x) ∨ ∃ t, (s.pc t).held = some x
  rr : ∀ t u x, s.run t = some x → s.run u = some x → t = u
  rh : ∀ t u x, s.run t = some x → (s.pc u).held ≠ some x
  hh : ∀ t u x, (s.pc t).held = some x → (s.pc u).held = some x → t = u
  ll : ∀ t u x, x ∈ s.loc t → x ∈ s.loc u → t = u
  ndS : s.shared.Nodup
  ndL : ∀ t, (s.loc t).Nodup
  ndW : ∀ t, (s.wq t).Nodup
  shW : ∀ x, x ∈ s.shared → pinned x = false
  modeS : s.stealing = true → s.shared = []
  modeL : s.stealing = false → ∀ t x, x ∈ s.loc t → pinned x = true
  homeR : ∀ t x, s.run t = some x → pinned x = true → own t x
  homeH : ∀ t x, (s.pc t).held = some x → pinned x = true → own t x
  homeT : ∀ t x, (s.pc t).taken = some x → pinned x = true → own t x
  homeL : ∀ t x, x ∈ s.loc t → pinned x = true → own t x
  pushW : ∀ t x, s.pc t = .push x → pinned x = false
  wqW : ∀ t x, x ∈ s.wq t → pinned x = false
  wqR : ∀ t x, s.run t = some x → pinned x = false → x ∈ s.wq t
  wqH : ∀ t x, (s.pc t).held = some x → s.pc t ≠ .push x → pinned x = false → x ∈ s.wq t
  wqI : ∀ t x, x ∈ s.wq t → s.run t = some x ∨ ((s.pc t).held = some x ∧ s.pc t ≠ .push x) ∨ l.status x = .blocked t
  dead : ∀ t, s.run t = none → s.pc t = .user
  why : ∀ t r x, (s.pc t).why = some r → s.run t = some x → (r = .disp ↔ x = .disp t) ∧ (r = .exit → x = .main t) ∧ (r = .finish → pinned x = false)
  put : ∀ t r x, s.pc t = .put r x → (r = .disp → x = .disp t) ∧ (r = .block → x ≠ .disp t) ∧ (r = .exit → x = .main t) ∧ (r = .finish → pinned x = false)
  idle : ∀ t, s.pc t = .idle → s.run t = some (.disp t)
  dl : ∀ t, s.run t ≠ none → s.st (.disp t) = .live
  mb : ∀ t, s.st (.main t) = .unborn → s.run t = none ∧ s.st (.disp t) = .unborn
  st : ∀ r c t, s.pc t = .steal r c → r = .disp
  cl : ∀ t, s.st (.main t) = .exiting → l.closing t = true

theorem inv_init (st : Bool) (n : Nat) : Inv (init st n) .init := by
  constructor <;> simp [init, Spec.init, Pc.held, Pc.taken, Pc.why]


attribute [local grind] Pc.held Pc.taken Pc.why

theorem upd_apply' {α : Type} (f : Nat → α) (i : Nat) (v : α) (j : Nat) : upd f i v j = if j = i then v else f j := rfl

set_option maxHeartbeats 4000000 in
/-- A thread enters `pick_next`, or goes on to another of its phases. -/
theorem inv_pc (h : Inv s l) {t : Tid} {x : Cx} {p : Pc} (hr : s.run t = some x) (hh : (s.pc t).held = none) (ht : (s.pc t).taken = none)
    (hp : p.held = none) (hp' : p.taken = none) 
    (hw : ∀ r, p.why = some r → (r = .disp ↔ x = .disp t) ∧ (r = .exit → x = .main t) ∧ (r = .finish → pinned x = false))
    (hi : p = .idle → x = .disp t) (hst : ∀ r c, p = .steal r c → r = .disp) : Inv { s with pc := upd s.pc t p } l := by
  cases h
  constructor <;> first | assumption | (simp only [upd_apply']; grind)

attribute [local grind] Verif.Sch.set after own pinned

set_option maxHeartbeats 4000000 in
theorem inv_wake (h : Inv s l) {t : Tid} {x y : Cx} (hr : s.run t = some y) (hp : s.pc t = .user) (hb : s.st x = .blocked) (hx : x ∈ s.wq t ∨ x = .main t) :
    l.status x = .blocked t ∧ Inv { s with st := set s.st x .live, pc := upd s.pc t (.aw x) } (after l (.woken t x)) := by
  have hs : l.status x = .blocked t := by cases h; grind
  refine ⟨hs, ?_⟩
  cases h
  constructor <;> first | assumption | (simp only [upd_apply', set_apply, after]; grind)

set_option maxHeartbeats 4000000 in
theorem inv_awP (h : Inv s l) {t : Tid} {x : Cx} (hp : s.pc t = .aw x) (hx : pinned x = true) :
    ok l (.ready t x) ∧ Inv { s with loc := upd s.loc t (s.loc t ++ [x]), pc := upd s.pc t .user } (after l (.ready t x)) := by
  have hs : ok l (.ready t x) := by cases h; simp only [ok, Spec.free]; grind
  refine ⟨hs, ?_⟩
  simp only [ok, Spec.free] at hs
  cases h
  constructor <;> first | assumption | (simp only [upd_apply', set_apply, after]; grind)

set_option maxHeartbeats 4000000 in
theorem inv_awW (h : Inv s l) {t : Tid} {x : Cx} (hp : s.pc t = .aw x) (hx : pinned x = false) :
    Inv { s with wq := upd s.wq t ((s.wq t).erase x), pc := upd s.pc t (.push x) } l := by
  cases h
  constructor <;> first | assumption | (simp only [upd_apply']; grind)

set_option maxHeartbeats 4000000 in
theorem inv_block (h : Inv s l) {t : Tid} {x : Cx} (hp : s.pc t = .put .block x) :
    ok l (.blocked t x) ∧ Inv { s with pc := upd s.pc t .user, st := set s.st x .blocked } (after l (.blocked t x)) := by
  have hs : ok l (.blocked t x) := by cases h; simp only [ok, Spec.free]; grind
  refine ⟨hs, ?_⟩
  simp only [ok, Spec.free] at hs
  cases h
  constructor <;> first | assumption | (simp only [upd_apply', set_apply, after]; grind)

set_option maxHeartbeats 4000000 in
theorem inv_done (h : Inv s l) {t : Tid} {x : Cx} (hp : s.pc t = .put .finish x) :
    ok l (.done t x) ∧ Inv { s with pc := upd s.pc t .user, st := set s.st x .done, wq := upd s.wq t ((s.wq t).erase x) } (after l (.done t x)) := by
  have hs : ok l (.done t x) := by cases h; simp only [ok, Spec.free]; grind
  refine ⟨hs, ?_⟩
  simp only [ok, Spec.free] at hs
  cases h
  constructor <;> first | assumption | (simp only [upd_apply', set_apply, after]; grind)

set_option maxHeartbeats 4000000 in
theorem inv_exit (h : Inv s l) {t : Tid} {x : Cx} (hp : s.pc t = .put .exit x) :
    ok l (.closing t) ∧ Inv { s with pc := upd s.pc t .user, st := set s.st x .exiting } (after l (.closing t)) := by
  have hs : ok l (.closing t) := by cases h; simp only [ok, Spec.free]; grind
  refine ⟨hs, ?_⟩
  simp only [ok, Spec.free] at hs
  cases h
  constructor <;> first | assumption | (simp only [upd_apply', set_apply, after]; grind)

set_option maxHeartbeats 4000000 in
theorem inv_end (h : Inv s l) {t : Tid} (hr : s.run t = some (.disp t)) (hp : s.pc t = .user ∨ s.pc t = .idle) (hm : s.st (.main t) = .exiting) (hw : s.wq t = []) :
    ok l (.ended t) ∧ Inv { s with run := upd s.run t none, pc := upd s.pc t .user, st := set (set s.st (.main t) .done) (.disp t) .done } (after l (.ended t)) := by
  have hs : ok l (.ended t) := by cases h; simp only [ok, Spec.free]; grind
  refine ⟨hs, ?_⟩
  simp only [ok, Spec.free] at hs
  cases h
  constructor <;> first | assumption | (simp only [upd_apply', set_apply, after]; grind)

set_option maxHeartbeats 4000000 in
theorem inv_thread (h : Inv s l) {t : Tid} (hm : s.st (.main t) = .unborn) :
    ok l (.started t) ∧ Inv { s with run := upd s.run t (some (.main t)), st := set (set s.st (.main t) .live) (.disp t) .live, pc := upd s.pc t (.aw (.disp t)) } (after l (.started t)) := by
  have hs : ok l (.started t) := by cases h; simp only [ok, Spec.free]; grind
  refine ⟨hs, ?_⟩
  simp only [ok, Spec.free] at hs
  cases h
  constructor <;> first | assumption | (simp only [upd_apply', set_apply, after]; grind)

set_option maxHeartbeats 4000000 in
theorem inv_yield (h : Inv s l) {t : Tid} {x : Cx} {r : Why} (hp : s.pc t = .put r x) : Inv { s with pc := upd s.pc t (.aw x) } l := by
  cases h
  constructor <;> first | assumption | (simp only [upd_apply']; grind)

end Verif.Multi
