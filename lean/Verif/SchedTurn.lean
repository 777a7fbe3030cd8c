import Verif.SchedD

/-!
# Taking turns: when a thread switches between its fibers, and that it does so always in the same way

On the model of the scheduler, `Verif/Sched.lean`.
-/

namespace Verif.Sch

/-- Calls in which the running fiber may give way to others of its thread: `this_fiber::yield`, waiting, sleeping, the end of the fiber or of the thread, and launching a fiber with `launch::dispatch`.
(Waking others, launching with `launch::post` and changing the algorithm are not among them.) -/
def Act.gives : Act → Bool
  | .yield | .wait _ | .sleep _ | .finish | .exit | .spawn _ true => true
  | _ => false

/-- The fiber is in its own code, or in a call that wakes a fiber of another thread. -/
def Pc.own : Pc → Bool
  | .user | .push _ | .notify _ | .signal _ => true
  | _ => false

local macro "out" h:ident : tactic => `(tactic|
  ((repeat' split at $h:ident) <;> first
    | (simp only [reduceCtorEq] at $h:ident; done)
    | (simp only [Option.some.injEq, Prod.mk.injEq] at $h:ident; obtain ⟨hfst, hsnd⟩ := $h; subst hfst; clear hsnd; try dsimp only)))

theorem keeps {s s' : State} {t : Tid} {x : Cx} {e : Event} {o : List Obs} (h : Inv s) (ha : s.active t = some x) (hp : (s.pc x).own)
    (hg : ∀ a, e = .act t a → a.gives = false) (he : step s e = some (s', o)) : s'.active t = some x ∧ (s'.pc x).own := by
  have hh := h.a.actHome _ _ ha
  cases e with
  | thread u =>
    simp only [step] at he
    split at he
    · rename_i hu
      have h1 := (h.a.none u).2 (.inl hu)
      simp only [Option.some.injEq, Prod.mk.injEq] at he
      obtain ⟨rfl, -⟩ := he
      have hd := (h.a.born u).2 hu
      grind [upd, set, Pc.own]
    · cases he
  | tick n => simp only [step, Option.some.injEq, Prod.mk.injEq] at he; obtain ⟨rfl, -⟩ := he; exact ⟨ha, hp⟩
  | spurious u =>
    simp only [step] at he
    split at he
    · simp only [Option.some.injEq, Prod.mk.injEq] at he; obtain ⟨rfl, -⟩ := he; exact ⟨ha, hp⟩
    · cases he
  | act u a =>
    simp only [step] at he
    split at he
    · rename_i z hz
      have hzh := h.a.actHome _ _ hz
      split at he
      · rename_i hu
        have hg' : u = t → a.gives = false := by rintro rfl; exact hg _ rfl
        have hx : u ≠ t → z ≠ x := by grind
        have hx' : u = t → z = x := by grind
        have h1 := h.c.pubE
        cases a with
        | yield => simp only [act] at he; out he; grind [set, Act.gives]
        | spawn n d =>
          cases d
          · simp only [act, schedule, switch, Bool.false_eq_true, if_false] at he
            out he
            grind [set, upd, Act.gives, Pc.own]
          · simp only [act, schedule, switch, if_true] at he
            out he <;> grind [set, upd, Act.gives, Pc.own]
        | wait dl => cases dl <;> simp only [act] at he <;> out he <;> grind [set, Act.gives]
        | sleep d => simp only [act] at he; out he; grind [set, Act.gives]
        | wake y ep => simp only [act, schedule] at he; out he <;> grind [set, Act.gives, Pc.own]
        | finish => simp only [act] at he; out he; grind [set, Act.gives]
        | setAlgo => simp only [act] at he; out he; grind
        | exit => simp only [act] at he; out he; grind [set, Act.gives]
      · cases he
    · cases he
  | run u =>
    simp only [step] at he
    split at he
    · rename_i z hz
      have hzh := h.a.actHome _ _ hz
      have hx : u ≠ t → z ≠ x := by grind
      have hx' : u = t → z = x := by grind
      have hl : ∀ k : State → State × List Obs, (∀ s1, (k s1).1.active = s1.active ∧ ∀ y, y ≠ z → (k s1).1.pc y = s1.pc y) →
          u ≠ t → leave s u z k = some (s', o) → s'.active t = some x ∧ (s'.pc x).own := by
        intro k hk hut hlv
        simp only [leave] at hlv
        split at hlv
        · grind
        · rename_i y l hq
          have h1 := hk (switch { s with rq := upd s.rq u l } u z y).1
          simp only [Option.some.injEq, Prod.mk.injEq] at hlv
          obtain ⟨rfl, -⟩ := hlv
          refine ⟨?_, ?_⟩
          · rw [h1.1]; simp only [switch, upd]; grind
          · rw [h1.2 _ (hx hut).symm]; exact hp
      have hsa : ∀ (l : List Cx) (s : State), (scheduleAll s u l).1.active = s.active ∧ (scheduleAll s u l).1.pc = s.pc := by
        intro l
        induction l with
        | nil => intro s; exact ⟨rfl, rfl⟩
        | cons y l ih => intro s; simp only [scheduleAll]; exact ih _
      have hut : u = t → s.pc z = s.pc x := by grind
      simp only [run] at he
      split at he
      case h_1 hq => exact hl _ (by intro s1; simp only [schedule]; grind [set]) (by grind [Pc.own]) he
      case h_2 hq => exact hl _ (by intro s1; grind [set]) (by grind [Pc.own]) he
      case h_3 hq => exact hl _ (by intro s1; grind [set]) (by grind [Pc.own]) he
      case h_4 hq => exact hl _ (by intro s1; grind [set]) (by grind [Pc.own]) he
      case h_5 hq => out he <;> grind [set, Pc.own]
      case h_6 hq => out he <;> grind [set, Pc.own]
      case h_7 hq => out he <;> grind [set, Pc.own]
      case h_8 hq => simp only [release] at he; out he <;> grind [set, Pc.own]
      case h_9 hq =>
        have h1 := hsa (s.rr u) { s with rr := upd s.rr u [] }
        simp only [Option.some.injEq, Prod.mk.injEq] at he
        obtain ⟨rfl, -⟩ := he
        simp only at h1 ⊢
        rw [h1.1, h1.2]
        grind [set, Pc.own]
      case h_10 hq => out he <;> grind [set, Pc.own]
      case h_11 hq =>
        have h1 := h.c.slE u
        simp only [schedule] at he
        out he <;> grind [set, Pc.own]
      case h_12 hq =>
        split at he
        · out he; grind [set, Pc.own]
        · exact hl _ (by intro s1; simp only [schedule]; grind [set]) (by grind [Pc.own]) he
      case h_13 hq => out he <;> grind [set, Pc.own]
      case h_14 hq => out he <;> grind [set, Pc.own]
      case h_15 hq =>
        have h2 := h.a.kDisp
        have h3 : z = .disp u := by
          cases z with
          | main v => exact absurd (by simp [hq, Pc.disp]) (h.a.kMain v).1
          | work v => exact absurd (by simp [hq, Pc.disp]) (h.a.kWork v).1
          | disp v => grind
        have h4 : x ≠ .main u := by rintro rfl; grind [Pc.own]
        simp only [release, switch] at he
        out he
        grind [set, upd, Pc.own]
      case h_16 hq => out he <;> grind [set, upd, Pc.own]
      case h_17 => cases he
    · cases he

/-- In such a step the thread resumes nobody. -/
theorem no_switch {s s' : State} {t : Tid} {x : Cx} {e : Event} {o : List Obs} (ha : s.active t = some x) (hp : (s.pc x).own)
    (hg : ∀ a, e = .act t a → a.gives = false) (he : step s e = some (s', o)) (y : Cx) : .run t y ∉ o ∧ .direct t y ∉ o := by
  have hsa : ∀ (u : Tid) (l : List Cx) (s : State), .run t y ∉ (scheduleAll s u l).2 ∧ .direct t y ∉ (scheduleAll s u l).2 := by
    intro u l
    induction l with
    | nil => intro s; simp [scheduleAll]
    | cons z l ih => intro s; have := ih (schedule s u z).1; simp [scheduleAll, schedule] at this ⊢; exact this
  cases e with
  | thread u => simp only [step] at he; split at he <;> grind
  | tick n => simp only [step] at he; grind
  | spurious u => simp only [step] at he; split at he <;> grind
  | act u a =>
    simp only [step] at he
    split at he
    · rename_i z hz
      split at he
      · have hg' : u = t → a.gives = false := by rintro rfl; exact hg _ rfl
        clear hg
        cases a with
        | spawn n d =>
          cases d
          · simp only [act, schedule, Bool.false_eq_true, if_false] at he
            grind
          · simp only [act, schedule, switch, if_true] at he
            grind [Act.gives]
        | wait dl => cases dl <;> simp only [act] at he <;> grind
        | _ => simp only [act, schedule] at he; grind
      · cases he
    · cases he
  | run u =>
    simp only [step] at he
    split at he
    · rename_i z hz
      have hut : u = t → (s.pc z).own := by rintro rfl; grind
      simp only [run, leave, schedule, switch, release] at he
      split at he
      case h_9 => have := hsa u (s.rr u) { s with rr := upd s.rr u [] }; grind
      all_goals grind [Pc.own]
    · cases he

/-! ## One thread, with no reference to time -/

/-- What has happened so far: which fiber made which call, and what came of it. -/
abbrev History := List (Cx × Act × List Obs)

/-- What can happen on a thread that is alone: its running fiber makes the next call; the library goes on by one step; a spurious wake-up; time passes. -/
inductive Move
  | call | run | spurious | tick (n : Nat)

/-- A program for one thread: what a fiber calls next is a function of all that has happened before. -/
abbrev Program := Cx → History → Act

/-- The program never waits with a deadline. -/
def Timeless (p : Program) : Prop := ∀ x h, (∀ d, p x h ≠ .sleep d) ∧ ∀ d, p x h ≠ .wait (some d)

def turn (p : Program) (c : State × History) : Move → Option (State × History)
  | .call =>
    match c.1.active 0 with
    | none => none
    | some x => (step c.1 (.act 0 (p x c.2))).map fun r => (r.1, c.2 ++ [(x, p x c.2, r.2)])
  | .run => (step c.1 (.run 0)).map fun r => (r.1, c.2)
  | .spurious => (step c.1 (.spurious 0)).map fun r => (r.1, c.2)
  | .tick n => (step c.1 (.tick n)).map fun r => (r.1, c.2)

def moves (p : Program) (c : State × History) : List Move → Option (State × History)
  | [] => some c
  | m :: ms => (turn p c m).bind fun c' => moves p c' ms

/-- The only thread has started. -/
def alone : State := ((step init (.thread 0)).map (·.1)).getD init

theorem alone_reach : ∃ tr, Reach step init alone tr := by
  exact ⟨[.started 0, .ready 0 (.disp 0)], reach_of_exec (es := [.thread 0]) rfl⟩

/-- Two states that differ in the clock, what the dispatcher has read of it, and the state of the condition variable of the algorithm. -/
structure Like (s1 s2 : State) : Prop where
  active : s2.active = s1.active
  gone   : s2.gone = s1.gone
  pc     : ∀ x, s1.pc x = s2.pc x ∨ x = .disp 0 ∧ (∃ n, s1.pc x = .timers n) ∧ ∃ n, s2.pc x = .timers n
  saved  : s2.saved = s1.saved
  hm     : s2.hm = s1.hm
  rq     : s2.rq = s1.rq
  rr     : s2.rr = s1.rr
  sl     : s2.sl = s1.sl
  tp     : s2.tp = s1.tp
  sep    : s2.sep = s1.sep
  wq     : s2.wq = s1.wq
  tq     : s2.tq = s1.tq
  sd     : s2.sd = s1.sd
  epoch  : s2.epoch = s1.epoch
  pub    : s2.pub = s1.pub

/-- Invariants of a thread that is alone. -/
structure Lone (s : State) : Prop where
  inv  : Inv s
  rr   : s.rr 0 = []
  sl   : s.sl 0 = []
  main : ∀ t, t ≠ 0 → s.pc (.main t) = .unborn
  own  : ∀ x, (s.pc x).own → s.pc x = .user
  up   : s.active 0 = some (.disp 0) → s.pc (.disp 0) ≠ .top → s.pc (.disp 0) ≠ .last → ¬ (s.sd 0 ∧ s.wq 0 = [])
  rq   : (∃ d, s.pc (.disp 0) = .idle d) ∨ (∃ d, s.pc (.disp 0) = .cnd d) → s.rq 0 = []

theorem Lone.home {s : State} (h : Lone s) {y : Cx} (hy : s.pc y ≠ .unborn) : s.home y = 0 := by
  have h1 := h.inv.a.wBorn
  have h2 := h.inv.a.born
  have h3 := h.main
  cases y <;> grind

local macro "both" h:ident : tactic => `(tactic|
  ((repeat' split at $h:ident) <;> first
    | (simp only [reduceCtorEq] at $h:ident; done)
    | (simp only [Option.some.injEq, Prod.mk.injEq] at $h:ident; obtain ⟨hfst, hsnd⟩ := $h; subst hfst; subst hsnd; try dsimp only)))

theorem like_call {s1 s2 r1 r2 : State} {x : Cx} {a : Act} {o1 o2 : List Obs} (hl : Like s1 s2) (h1 : Lone s1) (hx : s1.pc x = .user)
    (ha : s1.active 0 = some x)
    (e1 : act s1 0 x a = some (r1, o1)) (e2 : act s2 0 x a = some (r2, o2)) : o1 = o2 ∧ Like r1 r2 := by
  obtain ⟨ac, go, pc, sv, hm, rq, rr, sl, tp, sep, wq, tq, sd, fl, sg, ep, pb, nw⟩ := s2
  obtain ⟨l1, l2, l3, l4, l5, l6, l7, l8, l9, l10, l11, l12, l13, l14, l15⟩ := hl
  dsimp only at l1 l2 l3 l4 l5 l6 l7 l8 l9 l10 l11 l12 l13 l14 l15
  subst l1 l2 l4 l5 l6 l7 l8 l9 l10 l11 l12 l13 l14 l15
  have k := h1.inv.a.kDisp 0
  have b := h1.inv.c.pubB
  cases a with
  | yield => simp only [act] at e1 e2; both e1; both e2; exact ⟨rfl, by constructor <;> first | rfl | grind [set]⟩
  | spawn n d =>
    cases d
    · simp only [act, schedule, Bool.false_eq_true, if_false] at e1 e2
      both e1; both e2; exact ⟨rfl, by constructor <;> first | rfl | grind [set]⟩
    · simp only [act, schedule, switch, if_true] at e1 e2
      both e1 <;> both e2 <;> first | contradiction | exact ⟨rfl, by constructor <;> first | rfl | grind [set]⟩
  | wait dl =>
    cases dl <;> simp only [act] at e1 e2 <;> both e1 <;> both e2 <;> exact ⟨rfl, by constructor <;> first | rfl | grind [set]⟩
  | sleep d => simp only [act] at e1 e2; both e1; both e2; exact ⟨rfl, by constructor <;> first | rfl | grind [set]⟩
  | wake y ep =>
    simp only [act, schedule] at e1 e2
    both e1 <;> both e2 <;> first | contradiction | exact ⟨rfl, by constructor <;> first | rfl | grind [set]⟩
  | finish => simp only [act] at e1 e2; both e1 <;> both e2 <;> first | (exfalso; grind; done) | exact ⟨rfl, by constructor <;> first | rfl | grind [set]⟩
  | setAlgo => simp only [act] at e1 e2; both e1; both e2; exact ⟨rfl, by constructor <;> first | rfl | grind [set]⟩
  | exit => simp only [act] at e1 e2; both e1 <;> both e2 <;> first | contradiction | exact ⟨rfl, by constructor <;> first | rfl | grind [set]⟩

theorem Lone.disp {s : State} (h : Lone s) {x : Cx} (ha : s.active 0 = some x) (hx : (s.pc x).disp) : x = .disp 0 := by
  have h1 := h.inv.a.actHome _ _ ha
  cases x with
  | main v => exact absurd hx (h.inv.a.kMain v).1
  | work v => exact absurd hx (h.inv.a.kWork v).1
  | disp v => simp at h1; rw [h1]

theorem like_run {s1 s2 r1 r2 : State} {x : Cx} {o1 o2 : List Obs} (hl : Like s1 s2) (h1 : Lone s1) (ha : s1.active 0 = some x)
    (hi : ∀ d, s1.pc x ≠ .idle d ∧ s1.pc x ≠ .cnd d)
    (e1 : run s1 0 x = some (r1, o1)) (e2 : run s2 0 x = some (r2, o2)) : Like r1 r2 := by
  have own := h1.own x
  have hd := h1.disp ha
  have slN := h1.sl
  have rrN := h1.rr
  obtain ⟨ac, go, pc, sv, hm, rq, rr, sl, tp, sep, wq, tq, sd, fl, sg, ep, pb, nw⟩ := s2
  obtain ⟨l1, l2, l3, l4, l5, l6, l7, l8, l9, l10, l11, l12, l13, l14, l15⟩ := hl
  dsimp only at l1 l2 l3 l4 l5 l6 l7 l8 l9 l10 l11 l12 l13 l14 l15
  subst l1 l2 l4 l5 l6 l7 l8 l9 l10 l11 l12 l13 l14 l15
  simp only [run, leave, schedule, switch, release, rrN, scheduleAll] at e1 e2
  rcases l3 x with hp | ⟨rfl, ⟨n1, hp⟩, n2, hp'⟩
  · rw [← hp] at e2
    cases hq : s1.pc x <;> simp only [hq] at e1 e2 hi own
    case push => simp [Pc.own] at own
    case notify => simp [Pc.own] at own
    case signal => simp [Pc.own] at own
    case idle => simp at hi
    case cnd => simp at hi
    all_goals try (simp only [reduceCtorEq] at e1; done)
    all_goals (both e1 <;> both e2 <;> first | contradiction | (constructor <;> first | rfl | grind [set]))
  · simp only [hp, hp', slN] at e1 e2
    both e1; both e2
    constructor <;> first | rfl | grind [set]

theorem lone_act {s s' : State} {x : Cx} {a : Act} {o : List Obs} (h : Lone s) (hi : Inv s') (ha : s.active 0 = some x) (hx : s.pc x = .user)
    (ht : (∀ d, a ≠ .sleep d) ∧ ∀ d, a ≠ .wait (some d)) (he : act s 0 x a = some (s', o)) : Lone s' := by
  have hh := h.inv.a.actHome _ _ ha
  have hb := h.inv.c.pubB
  have hk := h.inv.a.kDisp 0
  have hxd : x ≠ .disp 0 := by rintro rfl; simp [hx, Pc.disp] at hk
  have hho : ∀ {y : Cx}, s.pc y ≠ .unborn → s.home y = 0 := h.home
  have hbu := h.inv.a.busyAct (.disp 0)
  obtain ⟨-, b2, b3, b4, b5, b6, b7⟩ := h
  cases a with
  | yield => simp only [act] at he; out he; constructor <;> first | assumption | grind [set, upd, Pc.own, Pc.busy]
  | spawn n d =>
    cases d
    · simp only [act, schedule, Bool.false_eq_true, if_false] at he
      out he; constructor <;> first | assumption | grind [set, upd, Pc.own, Pc.busy]
    · simp only [act, schedule, switch, if_true] at he
      out he <;> constructor <;> first | assumption | grind [set, upd, Pc.own, Pc.busy]
  | wait dl =>
    cases dl
    · simp only [act] at he; out he; constructor <;> first | assumption | grind [set, upd, Pc.own, Pc.busy]
    · simp at ht
  | sleep d => simp at ht
  | wake y ep =>
    simp only [act, schedule] at he
    out he <;> constructor <;> first | assumption | grind [set, upd, Pc.own, Pc.busy]
  | finish => simp only [act] at he; out he; constructor <;> first | assumption | grind [set, upd, Pc.own, Pc.busy]
  | setAlgo => simp only [act] at he; out he; constructor <;> first | assumption | grind [set, upd, Pc.own, Pc.busy]
  | exit => simp only [act] at he; out he; constructor <;> first | assumption | grind [set, upd, Pc.own, Pc.busy]

theorem lone_run {s s' : State} {x : Cx} {o : List Obs} (h : Lone s) (hi : Inv s') (ha : s.active 0 = some x)
    (he : run s 0 x = some (s', o)) : Lone s' := by
  have hh := h.inv.a.actHome _ _ ha
  have hd := h.disp ha
  have hk := h.inv.a.kDisp 0
  have hbu := h.inv.a.busyAct (.disp 0)
  have hrq := h.inv.b.rq 0
  obtain ⟨-, b2, b3, b4, b5, b6, b7⟩ := h
  simp only [run, leave, schedule, switch, release, b2, scheduleAll] at he
  cases hq : s.pc x <;> simp only [hq] at he hd
  case push => have := b5 x; simp [hq, Pc.own] at this
  case notify => have := b5 x; simp [hq, Pc.own] at this
  case signal => have := b5 x; simp [hq, Pc.own] at this
  all_goals try (simp only [reduceCtorEq] at he; done)
  all_goals (out he <;> constructor <;> first | assumption | grind [set, upd, Pc.own, Pc.busy])

/-- The configurations of a thread that is alone. -/
def Good (s : State) : Prop := Lone s ∧ ∃ tr, Reach step init s tr

theorem good_step {s s' : State} {e : Event} {o : List Obs} (h : Good s) (he : step s e = some (s', o)) (hl : Inv s' → Lone s') : Good s' := by
  obtain ⟨-, tr, hr⟩ := h
  have hr' := Reach.tail e hr he
  exact ⟨hl (reach_inv hr'), _, hr'⟩

theorem good_turn {p : Program} (hp : Timeless p) {s s' : State} {h h' : History} {m : Move} (hg : Good s) (he : turn p (s, h) m = some (s', h')) :
    Good s' := by
  cases m with
  | call =>
    simp only [turn] at he
    split at he
    · cases he
    · rename_i x hx
      simp only [Option.map_eq_some_iff, Prod.mk.injEq] at he
      obtain ⟨⟨s1, o⟩, h1, rfl, -⟩ := he
      refine good_step hg h1 fun hi => ?_
      simp only [step, hx] at h1
      split at h1
      · rename_i hu; exact lone_act hg.1 hi hx hu (hp x h) h1
      · cases h1
  | run =>
    simp only [turn, Option.map_eq_some_iff, Prod.mk.injEq] at he
    obtain ⟨⟨s1, o⟩, h1, rfl, -⟩ := he
    refine good_step hg h1 fun hi => ?_
    simp only [step] at h1
    split at h1
    · rename_i x hx; exact lone_run hg.1 hi hx h1
    · cases h1
  | spurious =>
    simp only [turn, Option.map_eq_some_iff, Prod.mk.injEq] at he
    obtain ⟨⟨s1, o⟩, h1, rfl, -⟩ := he
    refine good_step hg h1 fun hi => ?_
    have h2 := hg.1
    simp only [step] at h1
    split at h1
    · simp only [Option.some.injEq, Prod.mk.injEq] at h1; obtain ⟨rfl, -⟩ := h1
      exact ⟨hi, h2.rr, h2.sl, h2.main, h2.own, h2.up, h2.rq⟩
    · cases h1
  | tick n =>
    simp only [turn, Option.map_eq_some_iff, Prod.mk.injEq] at he
    obtain ⟨⟨s1, o⟩, h1, rfl, -⟩ := he
    refine good_step hg h1 fun hi => ?_
    have h2 := hg.1
    simp only [step, Option.some.injEq, Prod.mk.injEq] at h1; obtain ⟨rfl, -⟩ := h1
    exact ⟨hi, h2.rr, h2.sl, h2.main, h2.own, h2.up, h2.rq⟩

/-- The dispatcher has nothing to do, and nobody is left who could give it something. -/
structure Stuck (s : State) : Prop where
  act : s.active 0 = some (.disp 0)
  rq  : s.rq 0 = []
  rr  : s.rr 0 = []
  sl  : s.sl 0 = []
  pc  : (s.pc (.disp 0)).disp ∧ s.pc (.disp 0) ≠ .last
  sd  : ¬ (s.sd 0 ∧ s.wq 0 = [])

theorem stuck_turn {p : Program} {s s' : State} {h h' : History} {m : Move} (hs : Stuck s) (he : turn p (s, h) m = some (s', h')) :
    Stuck s' ∧ h' = h := by
  obtain ⟨a1, a2, a3, a4, ⟨a5, a6⟩, a7⟩ := hs
  cases m with
  | call =>
    simp only [turn, a1, Option.map_eq_some_iff, Prod.mk.injEq] at he
    obtain ⟨⟨s1, o⟩, h1, rfl, rfl⟩ := he
    simp only [step, a1] at h1
    split at h1
    · rename_i hu; simp [hu, Pc.disp] at a5
    · cases h1
  | run =>
    simp only [turn, Option.map_eq_some_iff, Prod.mk.injEq] at he
    obtain ⟨⟨s1, o⟩, h1, rfl, rfl⟩ := he
    refine ⟨?_, rfl⟩
    simp only [step, a1, run, leave, schedule, switch, release, a3, a4, scheduleAll] at h1
    cases hq : s.pc (.disp 0) <;> simp only [hq] at h1 a5 a6
    all_goals try (simp [Pc.disp] at a5; done)
    all_goals try (simp at a6; done)
    all_goals (out h1 <;> constructor <;> first | assumption | grind [set, upd, Pc.disp])
  | spurious =>
    simp only [turn, Option.map_eq_some_iff, Prod.mk.injEq] at he
    obtain ⟨⟨s1, o⟩, h1, rfl, rfl⟩ := he
    refine ⟨?_, rfl⟩
    simp only [step] at h1
    out h1
    exact ⟨a1, a2, a3, a4, ⟨a5, a6⟩, a7⟩
  | tick n =>
    simp only [turn, Option.map_eq_some_iff, Prod.mk.injEq] at he
    obtain ⟨⟨s1, o⟩, h1, rfl, rfl⟩ := he
    refine ⟨?_, rfl⟩
    simp only [step] at h1
    out h1
    exact ⟨a1, a2, a3, a4, ⟨a5, a6⟩, a7⟩

theorem stuck_moves {p : Program} {ms : List Move} : ∀ {s s' : State} {h h' : History}, Stuck s → moves p (s, h) ms = some (s', h') → h' = h := by
  induction ms with
  | nil => intro s s' h h' _ he; simp only [moves, Option.some.injEq, Prod.mk.injEq] at he; exact he.2.symm
  | cons m ms ih =>
    intro s s' h h' hs he
    simp only [moves, Option.bind_eq_some_iff] at he
    obtain ⟨⟨s1, h1⟩, e1, e2⟩ := he
    obtain ⟨hs1, rfl⟩ := stuck_turn hs e1
    exact ih hs1 e2

theorem turn_prefix {p : Program} {s s' : State} {h h' : History} {m : Move} (he : turn p (s, h) m = some (s', h')) : h <+: h' := by
  cases m with
  | call =>
    simp only [turn] at he
    split at he
    · cases he
    · simp only [Option.map_eq_some_iff, Prod.mk.injEq] at he
      obtain ⟨_, -, -, rfl⟩ := he
      exact List.prefix_append _ _
  | run | spurious | tick n =>
    simp only [turn, Option.map_eq_some_iff, Prod.mk.injEq] at he
    obtain ⟨_, -, -, rfl⟩ := he
    exact List.prefix_refl _

theorem moves_prefix {p : Program} {ms : List Move} : ∀ {s s' : State} {h h' : History}, moves p (s, h) ms = some (s', h') → h <+: h' := by
  induction ms with
  | nil => intro s s' h h' he; simp only [moves, Option.some.injEq, Prod.mk.injEq] at he; rw [he.2]; exact List.prefix_refl _
  | cons m ms ih =>
    intro s s' h h' he
    simp only [moves, Option.bind_eq_some_iff] at he
    obtain ⟨⟨s1, h1⟩, e1, e2⟩ := he
    exact (turn_prefix e1).trans (ih e2)

/-- Time passes, or a spurious wake-up happens: as far as the fibers are concerned, nothing does. -/
theorem like_stutter {p : Program} {s1 s2 s1' : State} {h h' : History} {m : Move} (hl : Like s1 s2) (hm : m ≠ .call ∧ m ≠ .run)
    (he : turn p (s1, h) m = some (s1', h')) : Like s1' s2 ∧ h' = h := by
  obtain ⟨l1, l2, l3, l4, l5, l6, l7, l8, l9, l10, l11, l12, l13, l14, l15⟩ := hl
  cases m with
  | call => simp at hm
  | run => simp at hm
  | spurious =>
    simp only [turn, Option.map_eq_some_iff, Prod.mk.injEq] at he
    obtain ⟨⟨s1, o⟩, h1, rfl, rfl⟩ := he
    refine ⟨?_, rfl⟩
    simp only [step] at h1
    out h1
    exact ⟨l1, l2, l3, l4, l5, l6, l7, l8, l9, l10, l11, l12, l13, l14, l15⟩
  | tick n =>
    simp only [turn, Option.map_eq_some_iff, Prod.mk.injEq] at he
    obtain ⟨⟨s1, o⟩, h1, rfl, rfl⟩ := he
    refine ⟨?_, rfl⟩
    simp only [step] at h1
    out h1
    exact ⟨l1, l2, l3, l4, l5, l6, l7, l8, l9, l10, l11, l12, l13, l14, l15⟩

theorem Like.symm {s1 s2 : State} (h : Like s1 s2) : Like s2 s1 := by
  obtain ⟨l1, l2, l3, l4, l5, l6, l7, l8, l9, l10, l11, l12, l13, l14, l15⟩ := h
  refine ⟨l1.symm, l2.symm, fun x => ?_, l4.symm, l5.symm, l6.symm, l7.symm, l8.symm, l9.symm, l10.symm, l11.symm, l12.symm, l13.symm, l14.symm, l15.symm⟩
  grind

theorem idle_stuck {s : State} {x : Cx} (h : Lone s) (ha : s.active 0 = some x) (hi : ∃ d, s.pc x = .idle d ∨ s.pc x = .cnd d) : Stuck s := by
  obtain ⟨d, hd⟩ := hi
  have hx : x = .disp 0 := h.disp ha (by rcases hd with hd | hd <;> simp [hd, Pc.disp])
  subst hx
  refine ⟨ha, h.rq (by grind), h.rr, h.sl, ?_, h.up ha ?_ ?_⟩ <;> rcases hd with hd | hd <;> simp [hd, Pc.disp]

/-- The same calls, made by the same fibers, with the same results, one after the other: of two executions one has the other's history so far, and may be longer. -/
theorem same_history {p : Program} (hp : Timeless p) : ∀ (n : Nat) {ms1 ms2 : List Move} {s1 s2 r1 r2 : State} {h h1 h2 : History}, ms1.length + ms2.length ≤ n →
    Like s1 s2 → Good s1 → Good s2 → moves p (s1, h) ms1 = some (r1, h1) → moves p (s2, h) ms2 = some (r2, h2) → h1 <+: h2 ∨ h2 <+: h1 := by
  intro n
  induction n with
  | zero =>
    intro ms1 ms2 s1 s2 r1 r2 h h1 h2 hn hl g1 g2 e1 e2
    have : ms1 = [] := by cases ms1 <;> simp at hn ⊢
    subst this
    simp only [moves, Option.some.injEq, Prod.mk.injEq] at e1
    rw [← e1.2]
    exact .inl (moves_prefix e2)
  | succ n ih =>
    intro ms1 ms2 s1 s2 r1 r2 h h1 h2 hn hl g1 g2 e1 e2
    cases ms1 with
    | nil =>
      simp only [moves, Option.some.injEq, Prod.mk.injEq] at e1
      rw [← e1.2]
      exact .inl (moves_prefix e2)
    | cons m1 ms1 =>
      cases ms2 with
      | nil =>
        simp only [moves, Option.some.injEq, Prod.mk.injEq] at e2
        rw [← e2.2]
        exact .inr (moves_prefix e1)
      | cons m2 ms2 =>
        have e1' := e1
        have e2' := e2
        simp only [moves, Option.bind_eq_some_iff] at e1 e2
        obtain ⟨⟨s1', k1⟩, a1, b1⟩ := e1
        obtain ⟨⟨s2', k2⟩, a2, b2⟩ := e2
        simp only [List.length_cons] at hn
        by_cases hm1 : m1 ≠ .call ∧ m1 ≠ .run
        · obtain ⟨hl', rfl⟩ := like_stutter hl hm1 a1
          exact ih (ms2 := m2 :: ms2) (by simp only [List.length_cons]; omega) hl' (good_turn hp g1 a1) g2 b1 e2'
        by_cases hm2 : m2 ≠ .call ∧ m2 ≠ .run
        · obtain ⟨hl', rfl⟩ := like_stutter hl.symm hm2 a2
          exact ih (ms1 := m1 :: ms1) (by simp only [List.length_cons]; omega) hl'.symm g1 (good_turn hp g2 a2) e1' b2
        cases hx : s1.active 0 with
        | none =>
          exfalso
          have : m1 = .call ∨ m1 = .run := by grind
          rcases this with rfl | rfl <;> simp [turn, step, hx] at a1
        | some x =>
          have hx2 : s2.active 0 = some x := by rw [hl.active]; exact hx
          by_cases hi : ∃ d, s1.pc x = .idle d ∨ s1.pc x = .cnd d
          · have hs := idle_stuck g1.1 hx hi
            rw [stuck_moves hs e1']
            exact .inl (moves_prefix e2')
          · have g1' := good_turn hp g1 a1
            have g2' := good_turn hp g2 a2
            have hm : m1 = .call ∨ m1 = .run := by grind
            have hm' : m2 = .call ∨ m2 = .run := by grind
            have hu : s1.pc x = .user ↔ s2.pc x = .user := by have := hl.pc x; grind
            rcases hm with rfl | rfl
            · simp only [turn, hx, Option.map_eq_some_iff, Prod.mk.injEq, step] at a1
              obtain ⟨⟨q1, o1⟩, c1, rfl, rfl⟩ := a1
              split at c1
              · rename_i hu1
                rcases hm' with rfl | rfl
                · simp only [turn, hx2, Option.map_eq_some_iff, Prod.mk.injEq, step, hu.1 hu1, if_true] at a2
                  obtain ⟨⟨q2, o2⟩, c2, rfl, rfl⟩ := a2
                  obtain ⟨rfl, hl'⟩ := like_call hl g1.1 hu1 hx c1 c2
                  exact ih (by omega) hl' g1' g2' b1 b2
                · simp [turn, step, hx2, run, hu.1 hu1] at a2
              · cases c1
            · simp only [turn, hx, Option.map_eq_some_iff, Prod.mk.injEq, step] at a1
              obtain ⟨⟨q1, o1⟩, c1, rfl, rfl⟩ := a1
              rcases hm' with rfl | rfl
              · simp only [turn, hx2, Option.map_eq_some_iff, Prod.mk.injEq, step] at a2
                obtain ⟨⟨q2, o2⟩, c2, rfl, rfl⟩ := a2
                split at c2
                · rename_i hu2; simp [run, hu.2 hu2] at c1
                · cases c2
              · simp only [turn, hx2, Option.map_eq_some_iff, Prod.mk.injEq, step] at a2
                obtain ⟨⟨q2, o2⟩, c2, rfl, rfl⟩ := a2
                exact ih (by omega) (like_run hl g1.1 hx (by grind) c1 c2) g1' g2' b1 b2

theorem good_alone : Good alone := by
  obtain ⟨tr, hr⟩ := alone_reach
  refine ⟨⟨reach_inv hr, rfl, rfl, ?_, ?_, ?_, ?_⟩, tr, hr⟩
  · intro t ht; simp [alone, step, init, set, ht]
  · intro x; simp [alone, step, init, set]; grind [Pc.own]
  · simp [alone, step, init, upd]
  · simp [alone, step, init]

end Verif.Sch
