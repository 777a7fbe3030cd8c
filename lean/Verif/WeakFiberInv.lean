import Verif.WeakFiber

/-!
# Fibers under weak memory: invariants
-/

namespace Verif.WeakFiber

open Weak

/-! ## Places -/

/-- Where a fiber is. -/
inductive Place
  /-- it runs on the thread, or the thread is about to put it somewhere -/
  | on (w : Nat)
  | own (w : Nat)
  | sq (j : Nat)
  | rq (w : Nat)
  /-- it waits for `g` -/
  | wq (g : Fib)
  /-- it has not been launched, or has ended -/
  | nil
  deriving DecidableEq, Repr

/-- Who has what other threads use of a fiber at this place. -/
def Place.who : Place → Option Who
  | .on w => some (.thr w)
  | .own w => some (.thr w)
  | .sq j => some (.lock (QS j))
  | .rq w => some (.lock (RS w))
  | .wq g => some (.lock (SPL g))
  | .nil => none

def Place.waits : Place → Bool
  | .wq _ => true
  | _ => false

def After.carry : After → List Fib
  | .yield f => [f]
  | _ => []

def Ret.carry : Ret → List Fib
  | .run n => [n]
  | .note f => [f]
  | .fetch f l => f :: l

/-- The fibers that are with a thread. -/
def Ph.carry : Ph → List Fib
  | .run f | .jSpin f _ | .jLook f _ | .jDone f _ | .jArm f _ | .jWaker f _ _ | .jPush f _ _ => [f]
  | .pick a | .qLook a _ => a.carry
  | .qRel a _ n => n.toList ++ a.carry
  | .att a n | .sw a n => n :: a.carry
  | .unl _ _ n | .own _ n => [n]
  | .sch h k | .qSpin h k _ | .qPush h k _ => h :: k.carry
  | .qFree k _ => k.carry
  | .tSpin f | .tMark f | .tNote f | .tRel f | .rRel f _ => [f]
  | .tCas f h _ | .tWoke f h | .rSpin f h _ | .rPush f h _ => [f, h]
  | .fSpin f | .fSwap f => [f]
  | .fRel f l | .fLoop f l => f :: l
  | .crashed => []

/-- The fibers whose `scheduler_` is that of the thread. -/
def Ph.here : Ph → List Fib
  | .run f | .jSpin f _ | .jLook f _ | .jDone f _ | .jArm f _ | .jWaker f _ _ | .jPush f _ _ => [f]
  | .pick a | .qLook a _ | .qRel a _ _ | .att a _ => [a.prev]
  | .sw a n => [n, a.prev]
  | .unl f _ n | .own f n => [f, n]
  | .sch h k => h :: k.carry
  | .qSpin _ k _ | .qPush _ k _ => k.carry
  | .qFree k _ => k.carry
  | .tSpin f | .tMark f | .tNote f | .tRel f | .rRel f _ => [f]
  | .tCas f _ _ | .tWoke f _ | .rSpin f _ _ | .rPush f _ _ => [f]
  | .fSpin f | .fSwap f => [f]
  | .fRel f l | .fLoop f l => f :: l
  | .crashed => []

def After.locks : After → List Nat
  | .susp _ g => [SPL g]
  | _ => []

def Ret.locks : Ret → List Nat
  | .note f => [SPL f]
  | _ => []

/-- The locks that a thread has. -/
def Ph.locks (w : Nat) : Ph → List Nat
  | .jLook _ g | .jDone _ g | .jArm _ g | .jWaker _ g _ | .jPush _ g _ => [SPL g]
  | .pick a => a.locks
  | .qLook a j | .qRel a j _ => QS j :: a.locks
  | .att a _ | .sw a _ => a.locks
  | .unl _ g _ => [SPL g]
  | .sch _ k | .qSpin _ k _ => k.locks
  | .qPush _ k j | .qFree k j => QS j :: k.locks
  | .tMark f | .tNote f | .tRel f | .tCas f _ _ | .tWoke f _ | .rSpin f _ _ => [SPL f]
  | .rPush f _ v | .rRel f v => [RS v, SPL f]
  | .fSwap _ | .fRel _ _ => [RS w]
  | _ => []

def Ret.ends : Ret → Option Fib
  | .note f => some f
  | _ => none

/-- The fiber that is ending, with `terminated_` set, on a thread. -/
def Ph.ends : Ph → Option Fib
  | .tNote f | .tRel f | .rRel f _ | .tCas f _ _ | .tWoke f _ | .rSpin f _ _ | .rPush f _ _ => some f
  | .sch _ k | .qSpin _ k _ | .qPush _ k _ | .qFree k _ => k.ends
  | _ => none

/-- A fiber that is, or may be put, in the shared queue `j`. -/
def InQ (sched : Fib → Option Nat) (h : Fib) (j : Nat) : Prop := if pinned h then j = homeOf h + 1 else sched h = none

/-- What is known about a fiber on the way into or out of a shared queue, or being woken. -/
def Way (sched : Fib → Option Nat) (term : Fib → Bool) (cont : Fib → Option Fib) (w : Nat) : Ph → Prop
  | .qSpin h _ j | .qPush h _ j => InQ sched h j
  | .qRel _ _ (some n) | .att _ n => if pinned n then homeOf n = w else sched n = none
  | .jDone _ g => term g = true
  | .tCas f h _ | .tWoke f h => cont h = some f ∧ ∃ v, sched h = some v
  | .rSpin f h v | .rPush f h v => cont h = some f ∧ sched h = some v
  | .crashed => False
  | _ => True

/-- Every fiber is at one place. -/
structure Str (s : State) (pl : Fib → Place) : Prop where
  car : ∀ w f, f ∈ (s.ph w).carry → pl f = .on w
  nd : ∀ w, (s.ph w).carry.Nodup
  here : ∀ w f, f ∈ (s.ph w).here → s.sched f = some w
  way : ∀ w, Way s.sched s.term s.cont w (s.ph w)
  own : ∀ w f, f ∈ s.own w → pl f = .own w ∧ s.sched f = some w
  ownN : ∀ w, (s.own w).Nodup
  sq : ∀ j f, f ∈ s.sq j → pl f = .sq j ∧ InQ s.sched f j
  sqN : ∀ j, (s.sq j).Nodup
  rq : ∀ w f, f ∈ s.rq w → pl f = .rq w ∧ s.sched f = some w
  rqN : ∀ w, (s.rq w).Nodup
  wq : ∀ g q, q ∈ s.wq g → pl q.1 = .wq g ∧ (∃ v, s.sched q.1 = some v) ∧ s.cont q.1 = some g
  wqN : ∀ g, ((s.wq g).map Prod.fst).Nodup
  pin : ∀ f, pinned f = true → s.sched f = some (homeOf f)
  ends : ∀ w f, (s.ph w).ends = some f → s.term f = true
  term : ∀ f, s.term f = true → pl f = .nil ∨ ∃ w, (s.ph w).ends = some f
  cont : ∀ f g, s.cont f = some g → (pl f).waits = false → s.term g = true
  new : ∀ f, pinned f = false → s.born f = false → pl f = .nil ∧ s.sched f = none ∧ s.term f = false ∧ s.cont f = none

/-! ## Who knows what -/

/-- Which thread has which lock. -/
def State.hold (s : State) (l w : Nat) : Prop := l ∈ (s.ph w).locks w

/-- Who has the private memory of a fiber, and all that the fiber knows. -/
def base (s : State) (pl : Fib → Place) (f : Fib) : Option Who :=
  match s.sched f with
  | some w => some (.thr w)
  | none => (pl f).who

/-- `k` has the non-atomic data of the library at location `x`. -/
inductive Tok (s : State) (pl : Fib → Place) : Nat → Who → Prop
  | prv (f : Fib) {k : Who} : base s pl f = some k → Tok s pl (PRV f) k
  | wk (f : Fib) {k : Who} : (pl f).who = some k → Tok s pl (WK f) k
  | wq (f : Fib) : Tok s pl (WQ f) (.lock (SPL f))
  | rq (w : Nat) : Tok s pl (RQ w) (.lock (RS w))
  | ql (j : Nat) : Tok s pl (QL j) (.lock (QS j))

/-- `k` has all that the fiber `f` knows. -/
inductive Car (s : State) (pl : Fib → Place) : Fib → Who → Prop
  | base {f : Fib} {k : Who} : base s pl f = some k → Car s pl f k
  | cont {f h : Fib} {k : Who} : s.cont h = some f → (pl h).waits = false → (pl h).who = some k → Car s pl f k
  | term {f : Fib} : s.term f = true → Car s pl f (.lock (SPL f))

/-- The thread `w` itself, or a lock that it has. -/
def Mine (s : State) (w : Nat) (k : Who) : Prop := k = .thr w ∨ ∃ l, k = .lock l ∧ isLock l ∧ s.hold l w

/-- The knowledge is where it belongs. -/
structure Mi (s : State) (pl : Fib → Place) (o : Order) : Prop where
  locks : Locks isLock s.mem s.hold
  tok : ∀ x k, Tok s pl x k → Kn s.mem s.hold k x (s.mem.last x)
  car : ∀ f k, Car s pl f k → ∀ x, Kn s.mem s.hold k (US x) (o.know f x)
  cnt : ∀ x, s.mem.last (US x) = o.count x
  fresh : ∀ f, pinned f = false → s.born f = false → s.mem.last (PRV f) = 0 ∧ s.mem.last (WK f) = 0 ∧ ∀ x, o.know f x = 0

/-! ## Wakers -/

/-- The fiber `f` has made a waker with epoch `e` that has not been used: where it is. -/
inductive Armed (s : State) : Fib → Nat → Who → Prop
  | made (w : Nat) {f g : Fib} {e : Nat} : s.ph w = .jWaker f g e → Armed s f e (.thr w)
  | push (w : Nat) {f g : Fib} {e : Nat} : s.ph w = .jPush f g e → Armed s f e (.thr w)
  | wq (g : Fib) {f : Fib} {e : Nat} : (f, e) ∈ s.wq g → Armed s f e (.lock (SPL g))
  | cas (w : Nat) {f h : Fib} {e : Nat} : s.ph w = .tCas f h e → Armed s h e (.thr w)

/-- An unused waker has the latest epoch, and whoever has it knows. -/
structure Ep (s : State) : Prop where
  val : ∀ f t g, s.mem.msg (EP f) t = some g → g.val = t
  down : ∀ f t, s.mem.msg (EP f) t = none → s.mem.msg (EP f) (t + 1) = none
  top : ∀ f e k, Armed s f e k → s.mem.msg (EP f) (e + 1) = none ∧ Kn s.mem s.hold k (EP f) e

/-! ## Locations -/

theorem lock_spl (f : Fib) : isLock (SPL f) := by unfold isLock SPL; omega
theorem lock_rs (f : Fib) : isLock (RS f) := by unfold isLock RS; omega
theorem lock_qs (f : Fib) : isLock (QS f) := by unfold isLock QS; omega
theorem not_lock_ep (f : Fib) : ¬ isLock (EP f) := by unfold isLock EP; omega

@[simp] theorem ep_inj {f g : Nat} : EP f = EP g ↔ f = g := by unfold EP; omega
@[simp] theorem spl_inj {f g : Nat} : SPL f = SPL g ↔ f = g := by unfold SPL; omega
@[simp] theorem prv_inj {f g : Nat} : PRV f = PRV g ↔ f = g := by unfold PRV; omega
@[simp] theorem wk_inj {f g : Nat} : WK f = WK g ↔ f = g := by unfold WK; omega
@[simp] theorem wq_inj {f g : Nat} : WQ f = WQ g ↔ f = g := by unfold WQ; omega
@[simp] theorem rs_inj {f g : Nat} : RS f = RS g ↔ f = g := by unfold RS; omega
@[simp] theorem rq_inj {f g : Nat} : RQ f = RQ g ↔ f = g := by unfold RQ; omega
@[simp] theorem us_inj {f g : Nat} : US f = US g ↔ f = g := by unfold US; omega
@[simp] theorem qs_inj {f g : Nat} : QS f = QS g ↔ f = g := by unfold QS; omega
@[simp] theorem ql_inj {f g : Nat} : QL f = QL g ↔ f = g := by unfold QL; omega
@[simp] theorem ep_spl {f g : Nat} : EP f = SPL g ↔ False := by simp only [EP, SPL, iff_false]; omega
@[simp] theorem ep_prv {f g : Nat} : EP f = PRV g ↔ False := by simp only [EP, PRV, iff_false]; omega
@[simp] theorem ep_wk {f g : Nat} : EP f = WK g ↔ False := by simp only [EP, WK, iff_false]; omega
@[simp] theorem ep_wq {f g : Nat} : EP f = WQ g ↔ False := by simp only [EP, WQ, iff_false]; omega
@[simp] theorem ep_rs {f g : Nat} : EP f = RS g ↔ False := by simp only [EP, RS, iff_false]; omega
@[simp] theorem ep_rq {f g : Nat} : EP f = RQ g ↔ False := by simp only [EP, RQ, iff_false]; omega
@[simp] theorem ep_us {f g : Nat} : EP f = US g ↔ False := by simp only [EP, US, iff_false]; omega
@[simp] theorem ep_qs {f g : Nat} : EP f = QS g ↔ False := by simp only [EP, QS, iff_false]; omega
@[simp] theorem ep_ql {f g : Nat} : EP f = QL g ↔ False := by simp only [EP, QL, iff_false]; omega
@[simp] theorem spl_ep {f g : Nat} : SPL f = EP g ↔ False := by simp only [SPL, EP, iff_false]; omega
@[simp] theorem spl_prv {f g : Nat} : SPL f = PRV g ↔ False := by simp only [SPL, PRV, iff_false]; omega
@[simp] theorem spl_wk {f g : Nat} : SPL f = WK g ↔ False := by simp only [SPL, WK, iff_false]; omega
@[simp] theorem spl_wq {f g : Nat} : SPL f = WQ g ↔ False := by simp only [SPL, WQ, iff_false]; omega
@[simp] theorem spl_rs {f g : Nat} : SPL f = RS g ↔ False := by simp only [SPL, RS, iff_false]; omega
@[simp] theorem spl_rq {f g : Nat} : SPL f = RQ g ↔ False := by simp only [SPL, RQ, iff_false]; omega
@[simp] theorem spl_us {f g : Nat} : SPL f = US g ↔ False := by simp only [SPL, US, iff_false]; omega
@[simp] theorem spl_qs {f g : Nat} : SPL f = QS g ↔ False := by simp only [SPL, QS, iff_false]; omega
@[simp] theorem spl_ql {f g : Nat} : SPL f = QL g ↔ False := by simp only [SPL, QL, iff_false]; omega
@[simp] theorem prv_ep {f g : Nat} : PRV f = EP g ↔ False := by simp only [PRV, EP, iff_false]; omega
@[simp] theorem prv_spl {f g : Nat} : PRV f = SPL g ↔ False := by simp only [PRV, SPL, iff_false]; omega
@[simp] theorem prv_wk {f g : Nat} : PRV f = WK g ↔ False := by simp only [PRV, WK, iff_false]; omega
@[simp] theorem prv_wq {f g : Nat} : PRV f = WQ g ↔ False := by simp only [PRV, WQ, iff_false]; omega
@[simp] theorem prv_rs {f g : Nat} : PRV f = RS g ↔ False := by simp only [PRV, RS, iff_false]; omega
@[simp] theorem prv_rq {f g : Nat} : PRV f = RQ g ↔ False := by simp only [PRV, RQ, iff_false]; omega
@[simp] theorem prv_us {f g : Nat} : PRV f = US g ↔ False := by simp only [PRV, US, iff_false]; omega
@[simp] theorem prv_qs {f g : Nat} : PRV f = QS g ↔ False := by simp only [PRV, QS, iff_false]; omega
@[simp] theorem prv_ql {f g : Nat} : PRV f = QL g ↔ False := by simp only [PRV, QL, iff_false]; omega
@[simp] theorem wk_ep {f g : Nat} : WK f = EP g ↔ False := by simp only [WK, EP, iff_false]; omega
@[simp] theorem wk_spl {f g : Nat} : WK f = SPL g ↔ False := by simp only [WK, SPL, iff_false]; omega
@[simp] theorem wk_prv {f g : Nat} : WK f = PRV g ↔ False := by simp only [WK, PRV, iff_false]; omega
@[simp] theorem wk_wq {f g : Nat} : WK f = WQ g ↔ False := by simp only [WK, WQ, iff_false]; omega
@[simp] theorem wk_rs {f g : Nat} : WK f = RS g ↔ False := by simp only [WK, RS, iff_false]; omega
@[simp] theorem wk_rq {f g : Nat} : WK f = RQ g ↔ False := by simp only [WK, RQ, iff_false]; omega
@[simp] theorem wk_us {f g : Nat} : WK f = US g ↔ False := by simp only [WK, US, iff_false]; omega
@[simp] theorem wk_qs {f g : Nat} : WK f = QS g ↔ False := by simp only [WK, QS, iff_false]; omega
@[simp] theorem wk_ql {f g : Nat} : WK f = QL g ↔ False := by simp only [WK, QL, iff_false]; omega
@[simp] theorem wq_ep {f g : Nat} : WQ f = EP g ↔ False := by simp only [WQ, EP, iff_false]; omega
@[simp] theorem wq_spl {f g : Nat} : WQ f = SPL g ↔ False := by simp only [WQ, SPL, iff_false]; omega
@[simp] theorem wq_prv {f g : Nat} : WQ f = PRV g ↔ False := by simp only [WQ, PRV, iff_false]; omega
@[simp] theorem wq_wk {f g : Nat} : WQ f = WK g ↔ False := by simp only [WQ, WK, iff_false]; omega
@[simp] theorem wq_rs {f g : Nat} : WQ f = RS g ↔ False := by simp only [WQ, RS, iff_false]; omega
@[simp] theorem wq_rq {f g : Nat} : WQ f = RQ g ↔ False := by simp only [WQ, RQ, iff_false]; omega
@[simp] theorem wq_us {f g : Nat} : WQ f = US g ↔ False := by simp only [WQ, US, iff_false]; omega
@[simp] theorem wq_qs {f g : Nat} : WQ f = QS g ↔ False := by simp only [WQ, QS, iff_false]; omega
@[simp] theorem wq_ql {f g : Nat} : WQ f = QL g ↔ False := by simp only [WQ, QL, iff_false]; omega
@[simp] theorem rs_ep {f g : Nat} : RS f = EP g ↔ False := by simp only [RS, EP, iff_false]; omega
@[simp] theorem rs_spl {f g : Nat} : RS f = SPL g ↔ False := by simp only [RS, SPL, iff_false]; omega
@[simp] theorem rs_prv {f g : Nat} : RS f = PRV g ↔ False := by simp only [RS, PRV, iff_false]; omega
@[simp] theorem rs_wk {f g : Nat} : RS f = WK g ↔ False := by simp only [RS, WK, iff_false]; omega
@[simp] theorem rs_wq {f g : Nat} : RS f = WQ g ↔ False := by simp only [RS, WQ, iff_false]; omega
@[simp] theorem rs_rq {f g : Nat} : RS f = RQ g ↔ False := by simp only [RS, RQ, iff_false]; omega
@[simp] theorem rs_us {f g : Nat} : RS f = US g ↔ False := by simp only [RS, US, iff_false]; omega
@[simp] theorem rs_qs {f g : Nat} : RS f = QS g ↔ False := by simp only [RS, QS, iff_false]; omega
@[simp] theorem rs_ql {f g : Nat} : RS f = QL g ↔ False := by simp only [RS, QL, iff_false]; omega
@[simp] theorem rq_ep {f g : Nat} : RQ f = EP g ↔ False := by simp only [RQ, EP, iff_false]; omega
@[simp] theorem rq_spl {f g : Nat} : RQ f = SPL g ↔ False := by simp only [RQ, SPL, iff_false]; omega
@[simp] theorem rq_prv {f g : Nat} : RQ f = PRV g ↔ False := by simp only [RQ, PRV, iff_false]; omega
@[simp] theorem rq_wk {f g : Nat} : RQ f = WK g ↔ False := by simp only [RQ, WK, iff_false]; omega
@[simp] theorem rq_wq {f g : Nat} : RQ f = WQ g ↔ False := by simp only [RQ, WQ, iff_false]; omega
@[simp] theorem rq_rs {f g : Nat} : RQ f = RS g ↔ False := by simp only [RQ, RS, iff_false]; omega
@[simp] theorem rq_us {f g : Nat} : RQ f = US g ↔ False := by simp only [RQ, US, iff_false]; omega
@[simp] theorem rq_qs {f g : Nat} : RQ f = QS g ↔ False := by simp only [RQ, QS, iff_false]; omega
@[simp] theorem rq_ql {f g : Nat} : RQ f = QL g ↔ False := by simp only [RQ, QL, iff_false]; omega
@[simp] theorem us_ep {f g : Nat} : US f = EP g ↔ False := by simp only [US, EP, iff_false]; omega
@[simp] theorem us_spl {f g : Nat} : US f = SPL g ↔ False := by simp only [US, SPL, iff_false]; omega
@[simp] theorem us_prv {f g : Nat} : US f = PRV g ↔ False := by simp only [US, PRV, iff_false]; omega
@[simp] theorem us_wk {f g : Nat} : US f = WK g ↔ False := by simp only [US, WK, iff_false]; omega
@[simp] theorem us_wq {f g : Nat} : US f = WQ g ↔ False := by simp only [US, WQ, iff_false]; omega
@[simp] theorem us_rs {f g : Nat} : US f = RS g ↔ False := by simp only [US, RS, iff_false]; omega
@[simp] theorem us_rq {f g : Nat} : US f = RQ g ↔ False := by simp only [US, RQ, iff_false]; omega
@[simp] theorem us_qs {f g : Nat} : US f = QS g ↔ False := by simp only [US, QS, iff_false]; omega
@[simp] theorem us_ql {f g : Nat} : US f = QL g ↔ False := by simp only [US, QL, iff_false]; omega
@[simp] theorem qs_ep {f g : Nat} : QS f = EP g ↔ False := by simp only [QS, EP, iff_false]; omega
@[simp] theorem qs_spl {f g : Nat} : QS f = SPL g ↔ False := by simp only [QS, SPL, iff_false]; omega
@[simp] theorem qs_prv {f g : Nat} : QS f = PRV g ↔ False := by simp only [QS, PRV, iff_false]; omega
@[simp] theorem qs_wk {f g : Nat} : QS f = WK g ↔ False := by simp only [QS, WK, iff_false]; omega
@[simp] theorem qs_wq {f g : Nat} : QS f = WQ g ↔ False := by simp only [QS, WQ, iff_false]; omega
@[simp] theorem qs_rs {f g : Nat} : QS f = RS g ↔ False := by simp only [QS, RS, iff_false]; omega
@[simp] theorem qs_rq {f g : Nat} : QS f = RQ g ↔ False := by simp only [QS, RQ, iff_false]; omega
@[simp] theorem qs_us {f g : Nat} : QS f = US g ↔ False := by simp only [QS, US, iff_false]; omega
@[simp] theorem qs_ql {f g : Nat} : QS f = QL g ↔ False := by simp only [QS, QL, iff_false]; omega
@[simp] theorem ql_ep {f g : Nat} : QL f = EP g ↔ False := by simp only [QL, EP, iff_false]; omega
@[simp] theorem ql_spl {f g : Nat} : QL f = SPL g ↔ False := by simp only [QL, SPL, iff_false]; omega
@[simp] theorem ql_prv {f g : Nat} : QL f = PRV g ↔ False := by simp only [QL, PRV, iff_false]; omega
@[simp] theorem ql_wk {f g : Nat} : QL f = WK g ↔ False := by simp only [QL, WK, iff_false]; omega
@[simp] theorem ql_wq {f g : Nat} : QL f = WQ g ↔ False := by simp only [QL, WQ, iff_false]; omega
@[simp] theorem ql_rs {f g : Nat} : QL f = RS g ↔ False := by simp only [QL, RS, iff_false]; omega
@[simp] theorem ql_rq {f g : Nat} : QL f = RQ g ↔ False := by simp only [QL, RQ, iff_false]; omega
@[simp] theorem ql_us {f g : Nat} : QL f = US g ↔ False := by simp only [QL, US, iff_false]; omega
@[simp] theorem ql_qs {f g : Nat} : QL f = QS g ↔ False := by simp only [QL, QS, iff_false]; omega

/-- The data of the user is not that of the library. -/
theorem tok_us {s : State} {pl : Fib → Place} {x : Nat} {k : Who} : ¬ Tok s pl (US x) k := by
  generalize hy : US x = y
  intro h
  cases h <;> simp at hy

theorem mine_lock {s : State} {w : Nat} {k : Who} (h : Mine s w k) : ∀ l, k = .lock l → isLock l := by
  intro l hl
  rcases h with h | ⟨l', h1, h2, _⟩
  · rw [h] at hl; cases hl
  · rw [h1] at hl; cases hl; exact h2

theorem who_lock {p : Place} {k : Who} (h : p.who = some k) : ∀ l, k = .lock l → isLock l := by
  intro l hl; subst hl
  cases p <;> simp only [Place.who, Option.some.injEq, Who.lock.injEq, reduceCtorEq] at h <;> subst h <;> simp [lock_spl, lock_rs, lock_qs]

theorem base_lock {s : State} {pl : Fib → Place} {f : Fib} {k : Who} (h : base s pl f = some k) : ∀ l, k = .lock l → isLock l := by
  unfold base at h
  split at h
  · cases h; intro l hl; cases hl
  · exact who_lock h

theorem tok_lock {s : State} {pl : Fib → Place} {x : Nat} {k : Who} (h : Tok s pl x k) : ∀ l, k = .lock l → isLock l := by
  cases h with
  | prv f h => exact base_lock h
  | wk f h => exact who_lock h
  | wq f => intro l hl; cases hl; exact lock_spl f
  | rq f => intro l hl; cases hl; exact lock_rs f
  | ql f => intro l hl; cases hl; exact lock_qs f

theorem car_lock {s : State} {pl : Fib → Place} {f : Fib} {k : Who} (h : Car s pl f k) : ∀ l, k = .lock l → isLock l := by
  cases h with
  | base h => exact base_lock h
  | cont _ _ h => exact who_lock h
  | term _ => intro l hl; cases hl; exact lock_spl _

/-- A thread can move knowledge between itself and its locks. -/
theorem Mi.move {s : State} {w : Nat} {k k0 : Who} {x n : Nat} (hl : Locks isLock s.mem s.hold) (h0 : Mine s w k0) (h1 : Mine s w k)
    (hk : Kn s.mem s.hold k0 x n) : Kn s.mem s.hold k x n := by
  have h2 : Kn s.mem s.hold (.thr w) x n := by
    rcases h0 with rfl | ⟨l, rfl, _, h3⟩
    · exact hk
    · exact hk.get h3
  rcases h1 with rfl | ⟨l, rfl, h3, h4⟩
  · exact h2
  · exact h2.put h4 (hl l h3)

/-- One step, as far as memory is concerned. `xs`: the non-atomic data that `w` has used. -/
theorem Mi.next {s s' : State} {pl pl' : Fib → Place} {o : Order} (hi : Mi s pl o) (w : Nat) (xs : List Nat)
    (hn : Next isLock s.mem s.hold s'.mem s'.hold)
    (hlast : ∀ y, y ∉ xs → s'.mem.last y = s.mem.last y)
    (hnew : ∀ x ∈ xs, s'.mem.last x ≤ s'.mem.cur w x)
    (hus : ∀ x, US x ∉ xs)
    (hmine : ∀ x ∈ xs, ∀ k, Tok s' pl' x k → Mine s' w k)
    (htok : ∀ x k, x ∉ xs → Tok s' pl' x k → Tok s pl x k ∨ (Mine s w k ∧ ∃ k0, Tok s pl x k0 ∧ Mine s w k0))
    (hcar : ∀ f k, Car s' pl' f k → Car s pl f k ∨ (Mine s w k ∧ ∃ k0, Car s pl f k0 ∧ Mine s w k0))
    (hfr : ∀ f, pinned f = false → s'.born f = false → PRV f ∉ xs ∧ WK f ∉ xs ∧ s.born f = false) : Mi s' pl' o where
  locks := hn.locks
  tok := by
    intro x k hk
    by_cases hx : x ∈ xs
    · have h1 : Kn s'.mem s'.hold (.thr w) x (s'.mem.last x) := hnew x hx
      exact Mi.move hn.locks (.inl rfl) (hmine x hx k hk) h1
    · rw [hlast x hx]
      refine hn.kn k x _ (tok_lock hk) ?_
      rcases htok x k hx hk with h1 | ⟨h1, k0, h2, h3⟩
      · exact hi.tok x k h1
      · exact Mi.move hi.locks h3 h1 (hi.tok x k0 h2)
  car := by
    intro f k hk x
    refine hn.kn k _ _ (car_lock hk) ?_
    rcases hcar f k hk with h1 | ⟨h1, k0, h2, h3⟩
    · exact hi.car f k h1 x
    · exact Mi.move hi.locks h3 h1 (hi.car f k0 h2 x)
  cnt := fun x => by rw [hlast _ (hus x)]; exact hi.cnt x
  fresh := fun f h1 h2 => by
    obtain ⟨h3, h4, h5⟩ := hfr f h1 h2
    rw [hlast _ h3, hlast _ h4]; exact hi.fresh f h1 h5

/-- The data that a thread, or a lock that it has, is given it can use without a race. -/
theorem Mi.safe {s : State} {pl : Fib → Place} {o : Order} (hi : Mi s pl o) {w x : Nat} {k : Who} (hk : Tok s pl x k) (hm : Mine s w k) :
    s.mem.last x ≤ s.mem.cur w x :=
  Mi.move (x := x) (n := s.mem.last x) hi.locks hm (.inl rfl) (hi.tok x k hk)

end Verif.WeakFiber
