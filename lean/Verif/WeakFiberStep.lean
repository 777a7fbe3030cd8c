import Verif.WeakFiberMem

/-!
# Fibers under weak memory: the invariant holds after every step
-/

namespace Verif.WeakFiber

open Weak

variable {s s' s1 : State} {pl pl' pl1 : Fib → Place} {ob : List Obs} {tr : List Obs} {w : Nat} {m : Mem} {a : After} {k : Ret} {f g h' n : Fib}
variable {e j v t x : Nat} {l : List Fib} {xs : List Nat} {p' : Ph} {q : List (Fib × Nat)}

/-- The function of the fiber has returned, but `terminated_` is not set yet. -/
def Ph.fin : Ph → Option Fib
  | .tSpin f | .tMark f => some f
  | _ => none

structure Inv (s : State) (tr : List Obs) (pl : Fib → Place) : Prop where
  str : Str s pl
  mi : Mi s pl (order tr)
  ep : Ep s
  fin : ∀ g, Obs.finished g ∈ tr ↔ (s.term g = true ∨ ∃ w, (s.ph w).fin = some g)

/-- What is claimed of an event. -/
def Good (tr : List Obs) : Obs → Prop
  | .lib _ r => r = false
  | .acc f x r => (r = true → (order tr).know f x < (order tr).count x) ∧ Obs.finished f ∉ tr
  | .woke _ _ b => b = true
  | .null _ => False
  | .joined _ g => Obs.finished g ∈ tr
  | _ => True

/-- The step leads to a state in order, and its events are as claimed. -/
def Fine (s' : State) (tr ob : List Obs) : Prop := ∃ pl', Inv s' (tr ++ ob) pl' ∧ ∀ p b q, ob = p ++ b :: q → Good (tr ++ p) b

theorem good_one {b0 : Obs} (h : Good tr b0) (p : List Obs) (b : Obs) (q : List Obs) (he : [b0] = p ++ b :: q) : Good (tr ++ p) b := by
  cases p with
  | nil => cases he; rw [List.append_nil]; exact h
  | cons a p => simp at he

theorem good_two {b0 b1 : Obs} (h : Good tr b0) (h1 : Good (tr ++ [b0]) b1) (p : List Obs) (b : Obs) (q : List Obs) (he : [b0, b1] = p ++ b :: q) :
    Good (tr ++ p) b := by
  cases p with
  | nil => cases he; rw [List.append_nil]; exact h
  | cons a p =>
    cases p with
    | nil => cases he; exact h1
    | cons a' p => simp at he

theorem order_append (tr ob : List Obs) : order (tr ++ ob) = ob.foldl Order.next (order tr) := List.foldl_append

/-! ## Wakers -/

theorem Ep.next (hi : Ep s) (hl : Locks isLock s.mem s.hold) (hn : Next isLock s.mem s.hold s'.mem s'.hold)
    (hm : ∀ f, s'.mem.msg (EP f) = s.mem.msg (EP f))
    (ha : ∀ f e k, Armed s' f e k → Armed s f e k ∨ (Mine s w k ∧ ∃ k0, Armed s f e k0 ∧ Mine s w k0)) : Ep s' where
  val := fun f t g h => hi.val f t g (by rw [← hm]; exact h)
  down := fun f t h => by rw [hm] at h ⊢; exact hi.down f t h
  top := fun f e k h => by
    rw [hm]
    have hk : ∀ l, k = .lock l → isLock l := by
      cases h with
      | wq g _ => intro l hl; cases hl; exact lock_spl g
      | _ => intro l hl; cases hl
    rcases ha f e k h with h1 | ⟨h1, k0, h2, h3⟩
    · exact ⟨(hi.top f e k h1).1, hn.kn k _ _ hk (hi.top f e k h1).2⟩
    · exact ⟨(hi.top f e k0 h2).1, hn.kn k _ _ hk (Mi.move hl h3 h1 (hi.top f e k0 h2).2)⟩

/-- At these places a thread has no waker. -/
def Ph.bare : Ph → Bool
  | .jWaker _ _ _ | .jPush _ _ _ | .tCas _ _ _ => false
  | _ => true

theorem armed_same {s s' : State} (hph : s'.ph = upd s.ph w p') (hp : p'.bare = true) (hq : s'.wq = s.wq) {k : Who} (h : Armed s' f e k) : Armed s f e k := by
  cases h with
  | wq g h => rw [hq] at h; exact .wq g h
  | made u h =>
    rw [hph, upd_apply] at h
    split at h
    · rw [h] at hp; cases hp
    · exact .made u h
  | push u h =>
    rw [hph, upd_apply] at h
    split at h
    · rw [h] at hp; cases hp
    · exact .push u h
  | cas u h =>
    rw [hph, upd_apply] at h
    split at h
    · rw [h] at hp; cases hp
    · exact .cas u h

/-- Where the fiber of an unused waker is. -/
theorem armed_place (hs : Str s pl) {k : Who} (h : Armed s f e k) :
    (∃ g, pl f = .wq g ∧ (f, e) ∈ s.wq g) ∨ ∃ w, pl f = .on w ∧ (s.ph w).bare = false := by
  cases h with
  | wq g h => exact .inl ⟨g, (hs.wq g _ h).1, h⟩
  | made u h => exact .inr ⟨u, hs.car u f (by rw [h]; simp [Ph.carry]), by rw [h]; rfl⟩
  | push u h => exact .inr ⟨u, hs.car u f (by rw [h]; simp [Ph.carry]), by rw [h]; rfl⟩
  | cas u h => exact .inr ⟨u, hs.car u f (by rw [h]; simp [Ph.carry]), by rw [h]; rfl⟩

/-! ## The end of functions -/

theorem fin_same (hi : Inv s tr pl) (hph : s'.ph = upd s.ph w p') (ht : s'.term = s.term) (hp : p'.fin = (s.ph w).fin)
    (hob : ∀ g, Obs.finished g ∉ ob) (g : Fib) : Obs.finished g ∈ tr ++ ob ↔ (s'.term g = true ∨ ∃ w, (s'.ph w).fin = some g) := by
  rw [List.mem_append, hi.fin g, ht, hph]
  simp only [hob g, or_false]
  have : ∀ u, (upd s.ph w p' u).fin = (s.ph u).fin := by
    intro u; rw [upd_apply]; split
    · rename_i hu; rw [hu, hp]
    · rfl
  simp only [this]

/-! ## The kinds of steps -/

theorem next_lib (hl : Locks isLock s.mem s.hold) (hm : s'.mem = (touches s.mem w xs).2) (hph : s'.ph = upd s.ph w p')
    (hlk : ∀ l, l ∈ p'.locks w ↔ l ∈ (s.ph w).locks w) :
    Next isLock s.mem s.hold s'.mem s'.hold ∧ s'.mem.msg = s.mem.msg := by
  have hu := touches_spec (m := s.mem) (w := w) (xs := xs) (b := (touches s.mem w xs).1) (m' := (touches s.mem w xs).2) rfl
  refine ⟨Next.quiet hl (fun l _ => ?_) ?_ (fun l u _ => hold_same hph hlk l u), by rw [hm, hu.msg]⟩
  · rw [hm, hu.msg]
  · rw [hm]; exact hu.mono

/-- The thread uses data of the library. Before, things may have moved (`s1`, `pl1`). -/
theorem fine_lib (hi : Inv s tr pl) (hm : s1.mem = s.mem) (hph : s1.ph = s.ph) (hst : Str (s1.lib w xs p').1 pl1) (hmi : Mi s1 pl1 (order tr))
    (hlk : ∀ l, l ∈ p'.locks w ↔ l ∈ (s.ph w).locks w)
    (hown : ∀ x ∈ xs, ∃ k, Tok s1 pl1 x k ∧ Mine s w k)
    (harm : ∀ f e k, Armed (s1.lib w xs p').1 f e k → Armed s f e k ∨ (Mine s w k ∧ ∃ k0, Armed s f e k0 ∧ Mine s w k0))
    (hfin : ∀ g, Obs.finished g ∈ tr ↔ ((s1.lib w xs p').1.term g = true ∨ ∃ w', ((s1.lib w xs p').1.ph w').fin = some g)) :
    Fine (s1.lib w xs p').1 tr (s1.lib w xs p').2 := by
  have hmine : ∀ k, Mine s w k → Mine s1 w k := by
    intro k hk; unfold Mine State.hold at hk ⊢; rw [hph]; exact hk
  have h1 := Mi.lib0 (s' := (s1.lib w xs p').1) (w := w) (xs := xs) (p' := p') hmi rfl rfl rfl rfl rfl rfl
    (fun l => by rw [hph]; exact hlk l) hst (fun x hx => by obtain ⟨k, h1, h2⟩ := hown x hx; exact ⟨k, h1, hmine k h2⟩)
  have h2 := next_lib (s := s) (s' := (s1.lib w xs p').1) (w := w) (xs := xs) (p' := p') hi.mi.locks (by simp only [State.lib, hm]) (by simp only [State.lib, hph]) hlk
  refine ⟨pl1, ⟨hst, ?_, ?_, ?_⟩, ?_⟩
  · rw [order_append]; exact h1.1
  · exact hi.ep.next hi.mi.locks h2.1 (fun f => by rw [h2.2]) harm
  · intro g; rw [List.mem_append, ← hfin]; simp [State.lib]
  · exact good_one h1.2

/-- … and no waker is made, moved or used. -/
theorem fine_lib' (hi : Inv s tr pl) (hm : s1.mem = s.mem) (hph : s1.ph = s.ph) (hst : Str (s1.lib w xs p').1 pl1) (hmi : Mi s1 pl1 (order tr))
    (hlk : ∀ l, l ∈ p'.locks w ↔ l ∈ (s.ph w).locks w)
    (hown : ∀ x ∈ xs, ∃ k, Tok s1 pl1 x k ∧ Mine s w k)
    (hb : p'.bare = true) (hq : s1.wq = s.wq) (ht : s1.term = s.term) (hp : p'.fin = (s.ph w).fin) :
    Fine (s1.lib w xs p').1 tr (s1.lib w xs p').2 := by
  refine fine_lib hi hm hph hst hmi hlk hown ?_ ?_
  · intro f e k hk
    exact .inl (armed_same (s := s) (s' := (s1.lib w xs p').1) (w := w) (by simp only [State.lib, hph]) hb hq hk)
  · intro g
    have := fin_same (s' := (s1.lib w xs p').1) (ob := []) hi (by simp only [State.lib, hph]) ht hp (by simp) g
    simpa using this

/-- The thread tries to take a lock. -/
theorem fine_lock (hi : Inv s tr pl) {l : Nat} (hs : s.lock w l t p' = some (s', ob)) (hl : isLock l)
    (hst : ∀ m, Str { s with mem := m, ph := upd s.ph w p' } pl)
    (hlk : ∀ l', l' ∈ p'.locks w ↔ (l' ∈ (s.ph w).locks w ∨ l' = l)) (hb : p'.bare = true) (hp : p'.fin = (s.ph w).fin) : Fine s' tr ob := by
  unfold State.lock at hs
  split at hs
  · cases hs
  · rename_i v m hr
    obtain ⟨g, hr'⟩ := rmw_spec hr
    obtain ⟨n', _, _, _, _, hm⟩ := hr'.msg
    have hep : ∀ f, m.msg (EP f) = s.mem.msg (EP f) := fun f => msg_other hm (by rintro rfl; exact not_lock_ep f hl)
    split at hs <;> cases hs
    · rename_i hv
      have h1 := hi.mi.take (p' := p') hr hv hl hlk
      have h2 := Next.take (h' := State.hold { s with mem := m, ph := upd s.ph w p' }) hi.mi.locks hr' hl hv (by simp)
        (fun l u _ => hold_more (s := s) (s' := { s with mem := m, ph := upd s.ph w p' }) rfl hlk l u)
      refine ⟨pl, ⟨hst m, by rw [order_append]; exact h1, ?_, ?_⟩, by simp⟩
      · exact hi.ep.next (w := w) hi.mi.locks h2.2 hep (fun f e k hk => .inl (armed_same (w := w) (p' := p') (s' := { s with mem := m, ph := upd s.ph w p' }) rfl hb rfl hk))
      · exact fin_same hi rfl rfl hp (by simp)
    · rename_i hv
      have h1 := hi.mi.bump hr hv hl
      have h2 : Next isLock s.mem s.hold m (State.hold { s with mem := m }) := Next.bump hi.mi.locks hr' hl hv (by simp) (fun _ _ _ => Iff.rfl)
      refine ⟨pl, ⟨⟨hi.str.car, hi.str.nd, hi.str.here, hi.str.way, hi.str.own, hi.str.ownN, hi.str.sq, hi.str.sqN, hi.str.rq, hi.str.rqN, hi.str.wq, hi.str.wqN,
        hi.str.pin, hi.str.ends, hi.str.term, hi.str.cont, hi.str.new⟩, by rw [order_append]; exact h1, ?_, ?_⟩, by simp⟩
      · refine hi.ep.next (w := w) hi.mi.locks h2 hep (fun f e k hk => .inl ?_)
        cases hk with
        | wq g h => exact .wq g h
        | made u h => exact .made u h
        | push u h => exact .push u h
        | cas u h => exact .cas u h
      · intro g; rw [List.append_nil]; exact hi.fin g

/-- The thread releases a lock. Before, things may have moved. -/
theorem fine_unlock (hi : Inv s tr pl) {l : Nat} (hs : s1.unlock w l t p' = some (s', ob)) (hm : s1.mem = s.mem) (hph : s1.ph = s.ph)
    (hmi : Mi s1 pl1 (order tr)) (hl : isLock l) (hw : l ∈ (s.ph w).locks w)
    (hst : ∀ m, Str { s1 with mem := m, ph := upd s1.ph w p' } pl1)
    (hlk : ∀ l', l' ∈ p'.locks w ↔ (l' ∈ (s.ph w).locks w ∧ l' ≠ l)) (hb : p'.bare = true) (hq : s1.wq = s.wq) (ht : s1.term = s.term)
    (hp : p'.fin = (s.ph w).fin) : Fine s' tr ob := by
  unfold State.unlock at hs
  split at hs
  · cases hs
  · rename_i m hr
    cases hs
    have hr' := store_spec hr
    obtain ⟨n', _, _, _, _, hm'⟩ := hr'.msg
    have hep : ∀ f, m.msg (EP f) = s.mem.msg (EP f) := fun f => by
      rw [← hm]; exact msg_other hm' (by rintro rfl; exact not_lock_ep f hl)
    have h1 := hmi.put (p' := p') hr hl (by rw [hph]; exact hw) (by rw [hph]; exact hlk)
    have h2 : Next isLock s.mem s.hold m (State.hold { s1 with mem := m, ph := upd s1.ph w p' }) := by
      rw [hm] at hr'
      refine Next.put hi.mi.locks hr' hl hw ?_
      intro l' u hl'
      simp only [State.hold, upd_apply]
      split
      · rename_i hu; subst hu; exact hlk l'
      · rename_i hu
        rw [hph]
        refine ⟨fun h => ⟨h, ?_⟩, (·.1)⟩
        rintro rfl
        exact hu ((hi.mi.locks l' hl).one u w h hw)
    refine ⟨pl1, ⟨hst m, by rw [order_append]; exact h1, ?_, ?_⟩, by simp⟩
    · exact hi.ep.next (w := w) hi.mi.locks h2 hep (fun f e k hk => .inl (armed_same (s := s) (w := w) (p' := p') (s' := { s1 with mem := m, ph := upd s1.ph w p' }) (by simp only [hph]) hb hq hk))
    · exact fin_same (w := w) hi (by simp only [hph]) ht hp (by simp)

/-- No memory operation. -/
theorem fine_idle (hi : Inv s tr pl) (hst : Str { s with ph := upd s.ph w p' } pl)
    (hlk : ∀ l, l ∈ p'.locks w ↔ l ∈ (s.ph w).locks w) (hb : p'.bare = true) (hp : p'.fin = (s.ph w).fin) :
    Fine { s with ph := upd s.ph w p' } tr [] := by
  refine ⟨pl, ⟨hst, by rw [order_append]; exact hi.mi.idle hlk, ?_, fin_same hi rfl rfl hp (by simp)⟩, by simp⟩
  refine hi.ep.next (w := w) hi.mi.locks (Next.quiet hi.mi.locks (fun _ _ => rfl) (fun _ _ => Nat.le_refl _) (fun l u _ => hold_same (s := s) rfl hlk l u))
    (fun _ => rfl) (fun f e k hk => .inl (armed_same (w := w) (p' := p') (s' := { s with ph := upd s.ph w p' }) rfl hb rfl hk))

end Verif.WeakFiber
