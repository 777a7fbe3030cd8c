import Verif.WeakUnbuf

/-! # The invariant of the unbuffered channel under weak memory -/

namespace Verif.WeakUnbuf

open Weak

/-- The push call a fiber is in. -/
def Pc.push? : Pc → Option Nat
  | .pStart c | .pTry c | .pCas c | .pNotify c | .pWait c | .pAfter c | .pLock c | .pClosed c | .pEmpty c | .pQueued c => some c
  | _ => none

/-- The push call a fiber is in, whose slot it has not published yet. -/
def Pc.pre? : Pc → Option Nat
  | .pStart c | .pTry c | .pCas c | .pLock c | .pClosed c | .pEmpty c | .pQueued c => some c
  | _ => none

/-- The call whose slot a fiber knows. -/
def Pc.ref? : Pc → Option Nat
  | .oCas _ c | .oNotify c | .oRead c | .oWake c | .cWake _ c | .pNotify c | .pWait c | .pAfter c => some c
  | _ => none

/-- The call whose value a fiber took. -/
def Pc.took? : Pc → Option Nat
  | .oNotify c | .oRead c | .oWake c => some c
  | _ => none

/-- The data a fiber is going to give away. -/
def Pc.gift? (o : Offer) : Pc → Option Nat
  | .oStart y | .oCas y _ | .oLock y | .oClosed y | .oEmpty y | .oQueued y => y
  | .cStart z => z
  | .cLoad z | .cWake z _ | .cProd z | .cCons z => if o = .late then z else none
  | _ => none

def Pc.queue? : Pc → Option Q
  | .pQueued _ => some .prod
  | .oQueued _ => some .cons
  | _ => none

def Pc.holds : Pc → Q → Bool
  | .pClosed _, .prod | .pEmpty _, .prod | .cCons _, .prod | .oClosed _, .cons | .oEmpty _, .cons => true
  | _, _ => false

def Pc.closing : Pc → Bool
  | .cLoad _ | .cWake _ _ | .cProd _ | .cCons _ => true
  | _ => false

/-- Locked, and `closed_` was not set. -/
def Pc.checked : Pc → Bool
  | .pEmpty _ | .oEmpty _ => true
  | _ => false

/-- `close` has returned. -/
def Fin (tr : List Obs) : Prop := ∃ v, Obs.closed v true ∈ tr

/-- What one knows who was woken while waiting for the value of call `c` to be consumed. -/
def Done (s : State) (tr : List Obs) (v : View) (c : Nat) : Prop :=
  1 ≤ v 1 ∨ ((∃ w x, Obs.popped w c x ∈ tr) ∧ s.own (s.val c) ≠ .sent c ∧
    ∀ y, s.back c = some y → s.own y = .back c ∧ s.mem.last (y + 2) ≤ v (y + 2))

/-- What holds of fiber `w` at `p`. -/
structure At (s : State) (tr : List Obs) (w : Nat) (p : Pc) : Prop where
  alive : ∀ c, s.alive c = true → s.thr c = w → p.push? = some c
  held : ∀ q, s.held q = some w ↔ p.holds q = true
  ent : ∀ q e, (w, e) ∈ s.wq q → e ≤ s.epoch w ∧ (e = s.epoch w → p.queue? = some q ∧ s.ready w = false)
  queued : ∀ q, p.queue? = some q → s.ready w = false → (w, s.epoch w) ∈ s.wq q
  ready : s.ready w = true → p.queue?.isSome = true ∨ ∃ c, (p = .pNotify c ∨ p = .pWait c) ∧ s.epoch w = s.ep c + 1
  call : ∀ c, p.push? = some c → s.thr c = w ∧ s.alive c = true ∧ c < s.calls
  pre : ∀ c, p.pre? = some c → s.pub c = false ∧ s.own (s.val c) = .sent c ∧ s.mem.last (s.val c + 2) ≤ s.mem.cur w (s.val c + 2)
  tries : ∀ c, p = .pTry c ∨ p = .pCas c → s.epoch w = s.ep c
  wait : ∀ c, p = .pNotify c ∨ p = .pWait c → s.epoch w = s.ep c ∨ (s.epoch w = s.ep c + 1 ∧ Done s tr (s.mail w) c)
  after : ∀ c, p = .pAfter c → s.epoch w = s.ep c + 1 ∧ Done s tr (s.mem.cur w) c
  ref : ∀ c, p.ref? = some c → s.pub c = true
  took : ∀ c, p.took? = some c → s.own (s.val c) = .taken c w ∧ s.mem.last (s.val c + 2) ≤ s.mem.cur w (s.val c + 2) ∧
    (s.alive c = true → ∀ y, s.back c = some y → s.own y = .back c ∧ s.mem.last (y + 2) ≤ s.mem.cur w (y + 2))
  gift : ∀ y, p.gift? s.offer = some y → s.own y = .fiber w
  offer : ∀ z, p = .cStart (some z) → s.offer ≠ .nothing
  closing : p.closing = true → 1 ≤ s.mem.cur w 1
  emptied : ∀ z, p = .cCons z → s.wq .prod = []
  checked : p.checked = true → ¬ Fin tr

/-- What `close` left is visible to those who see that it left it. -/
def LeftOk (s : State) (z : Nat) : Prop :=
  match s.offer with
  | .nothing => False
  | .early => (s.mem.msg 1 1).isSome = true ∧ ∀ t g, 1 ≤ t → s.mem.msg 1 t = some g → s.mem.last (z + 2) ≤ g.view (z + 2)
  | .late => s.mem.last (z + 2) ≤ s.lview .cons (z + 2) ∧ ∀ w, s.held .cons = some w → s.mem.last (z + 2) ≤ s.mem.cur w (z + 2)

structure Glob (s : State) (tr : List Obs) : Prop where
  slot : ∃ n, ∀ t, (s.mem.msg 0 t).isSome = true ↔ t ≤ n
  flag : ∃ n, ∀ t, (s.mem.msg 1 t).isSome = true ↔ t ≤ n
  flagVal : ∀ t g, s.mem.msg 1 t = some g → (g.val = 0 ↔ t = 0)
  refs : ∀ t g c, s.mem.msg 0 t = some g → g.val = c + 1 → s.pub c = true
  top : ∀ t g c, s.mem.msg 0 t = some g → s.mem.msg 0 (t + 1) = none → g.val = c + 1 →
    s.own (s.val c) = .sent c ∧ s.mem.last (s.val c + 2) ≤ g.view (s.val c + 2)
  pub : ∀ c, s.pub c = true → c < s.calls
  live : ∀ c, s.alive c = true → c < s.calls
  /-- the programs and the memory order that are all right -/
  ok : s.offer = .early → s.strong = true
  own : ∀ x w, s.own x = .fiber w → s.mem.last (x + 2) ≤ s.mem.cur w (x + 2)
  left : ∀ z, s.left = some z → s.own z = .left ∧ LeftOk s z
  fin : Fin tr → ∀ q, s.wq q = [] ∧ 1 ≤ s.lview q 1 ∧ ∀ u, s.held q = some u → 1 ≤ s.mem.cur u 1

structure Inv (s : State) (tr : List Obs) : Prop where
  glob : Glob s tr
  at_ : ∀ w, At s tr w (s.pc w)

/-- What a step of fiber `w` leaves as it is for fiber `u`. -/
structure Fr (s s' : State) (tr tr' : List Obs) (w u : Nat) : Prop where
  cur : ∀ y, s.mem.cur u y ≤ s'.mem.cur u y
  epoch : s'.epoch u = s.epoch u
  ready : s'.ready u = s.ready u
  mail : s'.mail u = s.mail u
  wq : ∀ q e, (u, e) ∈ s'.wq q ↔ (u, e) ∈ s.wq q
  held : ∀ q, s'.held q = some u ↔ s.held q = some u
  calls : s.calls ≤ s'.calls
  thr : ∀ c, c < s.calls → s'.thr c = s.thr c
  val : ∀ c, c < s.calls → s'.val c = s.val c
  ep : ∀ c, c < s.calls → s.thr c = u → s'.ep c = s.ep c
  alive : ∀ c, c < s.calls → s.thr c = u → s'.alive c = s.alive c
  aliveNew : ∀ c, s'.thr c = u → s'.alive c = true → s.thr c = u ∧ c < s.calls
  aliveOld : ∀ c, c < s.calls → s'.alive c = true → s.alive c = true
  pub : ∀ c, s.pub c = true → s'.pub c = true
  pubOld : ∀ c, c < s.calls → s.thr c = u → s'.pub c = s.pub c
  ownSent : ∀ x c, s.own x = .sent c → s.pub c = false → s'.own x = .sent c
  ownSent' : ∀ x c, c < s.calls → s'.own x = .sent c → s.own x = .sent c
  ownTaken : ∀ x c, s.own x = .taken c u → s'.own x = .taken c u
  ownBack : ∀ x c, s.own x = .back c → s'.alive c = true → s'.own x = .back c
  ownFiber : ∀ x, s.own x = .fiber u → s'.own x = .fiber u
  last : ∀ x, s.own x ≠ .fiber w → s'.mem.last (x + 2) = s.mem.last (x + 2)
  back : ∀ c, s.own (s.val c) ≠ .sent c → s'.back c = s.back c
  sub : ∀ o, o ∈ tr → o ∈ tr'
  fin : Fin tr' → Fin tr ∨ ∀ q, s.held q ≠ some u
  emptied : s.held .prod = some u → s.wq .prod = [] → s'.wq .prod = []
  offer : s'.offer = s.offer


theorem Done.frame {s s' : State} {tr tr' : List Obs} {w u c : Nat} {v v' : View} (h : Done s tr v c) (f : Fr s s' tr tr' w u)
    (hv : ∀ y, v y ≤ v' y) (hc : c < s.calls) (ha : s'.alive c = true) : Done s' tr' v' c := by
  rcases h with h | ⟨⟨a, x, h1⟩, h2, h3⟩
  · exact .inl (Nat.le_trans h (hv 1))
  · refine .inr ⟨⟨a, x, f.sub _ h1⟩, fun h => ?_, fun y hy => ?_⟩
    · rw [f.val c hc] at h; exact h2 (f.ownSent' _ c hc h)
    · rw [f.back c h2] at hy
      obtain ⟨h4, h5⟩ := h3 y hy
      refine ⟨f.ownBack y c h4 ha, ?_⟩
      rw [f.last y (by rw [h4]; intro h; cases h)]
      exact Nat.le_trans h5 (hv _)

theorem Pc.pre_push {p : Pc} {c : Nat} (h : p.pre? = some c) : p.push? = some c := by cases p <;> first | exact h | cases h

theorem Pc.checked_holds {p : Pc} (h : p.checked = true) : ∃ q, p.holds q = true := by
  cases p <;> first | exact ⟨.prod, rfl⟩ | exact ⟨.cons, rfl⟩ | cases h

theorem At.frame {s s' : State} {tr tr' : List Obs} {w u : Nat} {p : Pc} (g : Glob s tr) (h : At s tr u p)
    (f : Fr s s' tr tr' w u) : At s' tr' u p where
  alive := fun c ha ht => by
    obtain ⟨ht', hl⟩ := f.aliveNew c ht ha
    rw [f.alive c hl ht'] at ha
    exact h.alive c ha ht'
  held := fun q => (f.held q).trans (h.held q)
  ent := fun q e he => by
    rw [f.epoch, f.ready]; exact h.ent q e ((f.wq q e).1 he)
  queued := fun q hq hr => by
    rw [f.epoch]; rw [f.ready] at hr
    exact (f.wq q _).2 (h.queued q hq hr)
  ready := fun hr => by
    rw [f.ready] at hr
    rcases h.ready hr with h1 | ⟨c, h1, h2⟩
    · exact .inl h1
    · refine .inr ⟨c, h1, ?_⟩
      obtain ⟨hc, _, hl⟩ := h.call c (by rcases h1 with rfl | rfl <;> rfl)
      rw [f.epoch, f.ep c hl hc]; exact h2
  call := fun c hc => by
    obtain ⟨h1, h2, h3⟩ := h.call c hc
    exact ⟨(f.thr c h3).trans h1, by rw [f.alive c h3 h1]; exact h2, Nat.lt_of_lt_of_le h3 f.calls⟩
  pre := fun c hc => by
    obtain ⟨h1, h2, h3⟩ := h.pre c hc
    obtain ⟨h4, h5, h6⟩ := h.call c (Pc.pre_push hc)
    rw [f.pubOld c h6 h4, f.val c h6, f.last _ (by rw [h2]; intro h; cases h)]
    exact ⟨h1, f.ownSent _ c h2 h1, Nat.le_trans h3 (f.cur _)⟩
  tries := fun c hc => by
    obtain ⟨h4, _, hl⟩ := h.call c (by rcases hc with rfl | rfl <;> rfl)
    rw [f.epoch, f.ep c hl h4]; exact h.tries c hc
  wait := fun c hc => by
    obtain ⟨h4, h5, h6⟩ := h.call c (by rcases hc with rfl | rfl <;> rfl)
    rw [f.epoch, f.ep c h6 h4, f.mail]
    rcases h.wait c hc with h1 | ⟨h1, h2⟩
    · exact .inl h1
    · exact .inr ⟨h1, h2.frame f (fun _ => Nat.le_refl _) h6 (by rw [f.alive c h6 h4]; exact h5)⟩
  after := fun c hc => by
    obtain ⟨h4, h5, h6⟩ := h.call c (by subst hc; rfl)
    rw [f.epoch, f.ep c h6 h4]
    exact ⟨(h.after c hc).1, (h.after c hc).2.frame f f.cur h6 (by rw [f.alive c h6 h4]; exact h5)⟩
  ref := fun c hc => f.pub c (h.ref c hc)
  took := fun c hc => by
    obtain ⟨h1, h2, h3⟩ := h.took c hc
    have hcl : c < s.calls := g.pub c (h.ref c (by cases p <;> first | exact hc | cases hc))
    rw [f.val c hcl, f.last _ (by rw [h1]; intro h; cases h)]
    refine ⟨f.ownTaken _ c h1, Nat.le_trans h2 (f.cur _), fun ha y hy => ?_⟩
    rw [f.back c (by rw [h1]; intro h; cases h)] at hy
    obtain ⟨h4, h5⟩ := h3 (f.aliveOld c hcl ha) y hy
    refine ⟨f.ownBack y c h4 ha, ?_⟩
    rw [f.last y (by rw [h4]; intro h; cases h)]
    exact Nat.le_trans h5 (f.cur _)
  gift := fun y hy => by
    rw [f.offer] at hy
    exact f.ownFiber y (h.gift y hy)
  offer := fun z hz => by rw [f.offer]; exact h.offer z hz
  closing := fun hc => Nat.le_trans (h.closing hc) (f.cur 1)
  emptied := fun z hz => f.emptied ((h.held .prod).2 (by subst hz; rfl)) (h.emptied z hz)
  checked := fun hc hf => by
    rcases f.fin hf with h1 | h1
    · exact h.checked hc h1
    · obtain ⟨q, hq⟩ := Pc.checked_holds hc
      exact h1 q ((h.held q).2 hq)

theorem Inv.next {s s' : State} {tr tr' : List Obs} {w : Nat} (h : Inv s tr) (g : Glob s' tr') (p : At s' tr' w (s'.pc w))
    (f : ∀ u, u ≠ w → s'.pc u = s.pc u ∧ Fr s s' tr tr' w u) : Inv s' tr' := by
  refine ⟨g, fun u => ?_⟩
  by_cases hu : u = w
  · rw [hu]; exact p
  · obtain ⟨h1, h2⟩ := f u hu
    rw [h1]; exact (h.at_ u).frame h.glob h2

/-- Only the program counter of one fiber changes. -/
theorem Inv.goto {s : State} {tr : List Obs} {w : Nat} {p : Pc} (h : Inv s tr) (ha : At s tr w p) : Inv { s with pc := upd s.pc w p } tr := by
  have cast : ∀ u k, At s tr u k → At { s with pc := upd s.pc w p } tr u k := fun u k h =>
    ⟨h.alive, h.held, h.ent, h.queued, h.ready, h.call, h.pre, h.tries, h.wait, h.after, h.ref, h.took, h.gift, h.offer, h.closing, h.emptied, h.checked⟩
  have g := h.glob
  refine ⟨⟨g.slot, g.flag, g.flagVal, g.refs, g.top, g.pub, g.live, g.ok, g.own, g.left, g.fin⟩, fun u => ?_⟩
  refine cast u _ ?_
  by_cases hu : u = w
  · rw [hu]; simp only [upd_same]; exact ha
  · simp only [upd_other _ _ hu]; exact h.at_ u

end Verif.WeakUnbuf
