import Verif.Spinlock

/-!
# Spinlocks: mutual exclusion, no lost wake-up (C52), the adaptive estimate (C69)
-/

namespace Verif

/-! ## Specification -/

/-- Who holds the lock, after an observation. -/
def held : Option Who → SlObs → Option Who
  | _, .locked t => some t
  | _, .unlocked _ => none
  | h, .failed _ => h

/-- Who holds the lock after a history. -/
def holder (tr : List SlObs) : Option Who := tr.foldl held none

theorem holder_append (a b : List SlObs) : holder (a ++ b) = b.foldl held (holder a) := List.foldl_append ..

/-- In every history the lock is only given to somebody while nobody holds it, and only released by its holder. -/
def Exclusive (tr : List SlObs) : Prop :=
  (∀ a t b, tr = a ++ .locked t :: b → holder a = none) ∧ ∀ a t b, tr = a ++ .unlocked t :: b → holder a = some t

theorem exclusive_append {tr o : List SlObs} (h : Exclusive tr) (ho : o.length ≤ 1) (h1 : ∀ t, o = [.locked t] → holder tr = none)
    (h2 : ∀ t, o = [.unlocked t] → holder tr = some t) : Exclusive (tr ++ o) := by
  match o, ho with
  | [], _ => simpa using h
  | [x], _ =>
    have key : ∀ (a b : List SlObs) (y : SlObs), tr ++ [x] = a ++ y :: b → (a = tr ∧ b = [] ∧ y = x) ∨ ∃ b', tr = a ++ y :: b' := by
      intro a b y he
      rcases List.eq_nil_or_concat b with rfl | ⟨b', z, rfl⟩
      · have := List.append_inj' he rfl
        simp only [List.cons.injEq, and_true] at this
        exact .inl ⟨this.1.symm, rfl, this.2.symm⟩
      · refine .inr ⟨b', ?_⟩
        rw [show a ++ y :: b'.concat z = (a ++ y :: b') ++ [z] by simp] at he
        exact (List.append_inj' he rfl).1
    refine ⟨fun a t b he => ?_, fun a t b he => ?_⟩
    · rcases key a b _ he with ⟨rfl, rfl, hx⟩ | ⟨b', hb⟩
      · exact h1 t (by rw [hx])
      · exact h.1 a t b' hb
    · rcases key a b _ he with ⟨rfl, rfl, hx⟩ | ⟨b', hb⟩
      · exact h2 t (by rw [hx])
      · exact h.2 a t b' hb

theorem exclusive_nil : Exclusive [] := ⟨by simp, by simp⟩

theorem spin_run {S E : Type} {step : S → E → Option (S × List SlObs)} {α : Type} {es : List E} {a : S} {f : S → α} {v : α} {tr : List SlObs}
    (h : (exec step a es).map (fun r => (f r.1, r.2)) = some (v, tr)) : ∃ s, Reach step a s tr ∧ f s = v := by
  cases he : exec step a es with
  | none => rw [he] at h; cases h
  | some r =>
    rw [he] at h
    simp only [Option.map_some, Option.some.injEq, Prod.mk.injEq] at h
    exact ⟨r.1, by rw [← h.2]; exact reach_of_exec he, h.1⟩

/-- Thread `t` gets the lock by at most `m` steps of its own. -/
def Gets {S E : Type} (step : S → E → Option (S × List SlObs)) (e : E) (t : Who) (s : S) (m : Nat) : Prop :=
  ∃ k, k ≤ m ∧ ∃ s', exec step s (List.replicate k e) = some (s', [.locked t])

theorem Gets.next {S E : Type} {step : S → E → Option (S × List SlObs)} {e : E} {t : Who} {s s1 : S} {m : Nat} (h : Gets step e t s1 m)
    (hs : step s e = some (s1, [])) : Gets step e t s (m + 1) := by
  obtain ⟨k, hk, s', hs'⟩ := h
  refine ⟨k + 1, by omega, s', ?_⟩
  rw [List.replicate_succ, exec]
  simp [hs, hs']

theorem Gets.last {S E : Type} {step : S → E → Option (S × List SlObs)} {e : E} {t : Who} {s s1 : S}
    (hs : step s e = some (s1, [.locked t])) : Gets step e t s 1 :=
  ⟨1, Nat.le_refl _, s1, by simp [List.replicate, exec, hs]⟩

theorem Gets.mono {S E : Type} {step : S → E → Option (S × List SlObs)} {e : E} {t : Who} {s : S} {m n : Nat} (h : Gets step e t s m)
    (hn : m ≤ n) : Gets step e t s n := by
  obtain ⟨k, hk, hs⟩ := h; exact ⟨k, by omega, hs⟩

/-! ## Test-and-set spinlocks -/

namespace Ttas

variable {s s' : State} {tr : List SlObs} {ad : Bool} {t u : Who}

/-- The thread has got the lock. -/
def Pc.own : Pc → Bool
  | .save _ _ => true
  | .inside => true
  | _ => false

structure Inv (s : State) (h : Option Who) : Prop where
  hold : ∀ t, h = some t ↔ s.pc t = .inside
  one : ∀ t u, (s.pc t).own = true → (s.pc u).own = true → t = u
  free : s.locked = false → ∀ t, (s.pc t).own = false
  taken : s.locked = true → ∃ t, (s.pc t).own = true

theorem inv_init : Inv (init ad) none := ⟨by simp [init], by simp [init, Pc.own], by simp [init, Pc.own], by simp [init]⟩

theorem inv_step {h : Option Who} (hi : Inv s h) {e : Event} {o : List SlObs} (hs : step s e = some (s', o)) :
    Inv s' (o.foldl held h) ∧ o.length ≤ 1 ∧ (∀ t, o = [.locked t] → h = none) ∧ (∀ t, o = [.unlocked t] → h = some t) := by
  have hnone : (∀ t, (s.pc t).own = false) → h = none := by
    intro hf
    cases h with
    | none => rfl
    | some t => have := (hi.hold t).1 rfl; have h2 := hf t; rw [this] at h2; cases h2
  have hsave : ∀ t p r, s.pc t = .save p r → h = none := by
    intro t p r ht
    cases h with
    | none => rfl
    | some u =>
      have hu := (hi.hold u).1 rfl
      have := hi.one t u (by rw [ht]; rfl) (by rw [hu]; rfl)
      subst this; rw [ht] at hu; cases hu
  have h0 := hi
  obtain ⟨i1, i2, i3, i4⟩ := hi
  simp only [step] at hs
  have hst : (start s).own = false ∧ start s ≠ .inside := by simp only [start]; split <;> simp [Pc.own]
  split at hs
  all_goals repeat' split at hs
  all_goals first
    | cases hs; done
    | skip
  all_goals (
    simp only [Option.some.injEq, Prod.mk.injEq] at hs
    obtain ⟨rfl, rfl⟩ := hs
    refine ⟨⟨?_, ?_, ?_, ?_⟩, by simp, ?_, ?_⟩)
  all_goals ((try simp only [List.foldl, held, upd_apply]); try grind [Pc.own])

theorem reach_inv (h : Reach step (init ad) s tr) : Inv s (holder tr) ∧ Exclusive tr :=
  h.inv (fun s tr => Inv s (holder tr) ∧ Exclusive tr) ⟨inv_init, exclusive_nil⟩ (by
    intro s tr e s' o _ ⟨hi, hx⟩ hs
    obtain ⟨h1, h2, h3, h4⟩ := inv_step hi hs
    exact ⟨by rw [holder_append]; exact h1, exclusive_append hx h2 h3 h4⟩)

/-- The lock is only given to a thread while nobody holds it. -/
theorem exclusion (h : Reach step (init ad) s tr) : Exclusive tr := (reach_inv h).2

/-- At most one thread is between `lock()` and `unlock()`. -/
theorem one_inside (h : Reach step (init ad) s tr) (h1 : s.pc t = .inside) (h2 : s.pc u = .inside) : t = u :=
  (reach_inv h).1.one t u (by rw [h1]; rfl) (by rw [h2]; rfl)

/-- The lock variable is clear exactly if nobody has the lock. -/
theorem clear_iff_free (h : Reach step (init ad) s tr) : s.locked = false ↔ ∀ t, (s.pc t).own = false := by
  have hi := (reach_inv h).1
  refine ⟨hi.free, fun hf => ?_⟩
  cases hl : s.locked with
  | false => rfl
  | true => obtain ⟨t, ht⟩ := hi.taken hl; rw [hf t] at ht; cases ht

/-- `try_lock()` never waits, and fails exactly if another thread has the lock. -/
theorem try_exact (h : Reach step (init ad) s tr) (ht : s.pc t = .out) :
    ((∃ u, (s.pc u).own = true) → ∃ s', step s (.tryLock t) = some (s', [.failed t])) ∧
    ((∀ u, (s.pc u).own = false) → ∃ s', step s (.tryLock t) = some (s', [.locked t])) := by
  have hi := clear_iff_free h
  simp only [step, ht, if_true]
  refine ⟨fun ⟨u, hu⟩ => ?_, fun hf => ?_⟩
  · have hl : s.locked = true := by
      cases hl : s.locked with
      | true => rfl
      | false => have := hi.1 hl u; rw [hu] at this; cases this
    rw [if_pos hl]; exact ⟨_, rfl⟩
  · rw [hi.2 hf]; exact ⟨_, rfl⟩

/-- If the lock is free, a thread inside `lock()` gets it by at most four steps of its own. -/
theorem free_is_taken (hl : s.locked = false) (h1 : s.pc t ≠ .out) (h2 : s.pc t ≠ .inside) : Gets step (.step t) t s 4 := by
  have xchg : ∀ (s : State) p r, s.locked = false → s.pc t = .xchg p r → Gets step (.step t) t s 2 := by
    intro s p r hl hp
    by_cases ha : s.adaptive = true
    · refine Gets.next (s1 := { s with locked := true, pc := upd s.pc t (.save p r) }) (Gets.last (s1 := ?_) ?_) (by simp [step, hp, hl, ha])
      · exact { s with locked := true, retries := estimate p r, pc := upd (upd s.pc t (.save p r)) t .inside }
      · simp [step]
    · exact Gets.mono (Gets.last (s1 := { s with locked := true, pc := upd s.pc t .inside }) (by simp [step, hp, hl, ha])) (by omega)
  have test : ∀ (s : State) p r, s.locked = false → s.pc t = .test p r → Gets step (.step t) t s 3 := by
    intro s p r hl hp
    exact (xchg { s with pc := upd s.pc t (.xchg p r) } p r hl (by simp)).next (by simp [step, hp, hl])
  cases hp : s.pc t with
  | out => exact absurd hp h1
  | inside => exact absurd hp h2
  | prev => exact (test { s with pc := upd s.pc t (.test s.retries 0) } s.retries 0 hl (by simp)).next (by simp [step, hp])
  | test p r => exact (test s p r hl hp).mono (by omega)
  | xchg p r => exact (xchg s p r hl hp).mono (by omega)
  | save p r => exact (Gets.last (s1 := { s with retries := estimate p r, pc := upd s.pc t .inside }) (by simp [step, hp])).mono (by omega)

/-- Thread 1 spins eight times until thread 0 releases the lock; then thread 0 takes it without waiting. -/
def short : List Event := [.tryLock 0, .lock 1, .step 1] ++ List.replicate 8 (.step 1) ++ [.unlock 0, .step 1, .step 1, .step 1, .unlock 1] ++
  [.lock 0, .step 0, .step 0, .step 0, .step 0]

/-- The estimate of `spinlock_ttas_adaptive` leaves the range of the numbers it is made of: eight retries and then
none make it `2 ^ 61`. -/
theorem estimate_explodes : ∃ s, Reach step (init true) s [.locked 0, .unlocked 0, .locked 1, .unlocked 1, .locked 0] ∧ s.retries = 2 ^ 61 :=
  spin_run (es := short) (a := init true) (f := State.retries) (by decide +kernel)

/-- It is right as long as the number of retries does not decrease. -/
theorem estimate_partial {p r : Nat} (h1 : p ≤ r) (h2 : r < SIZE) : p ≤ estimate p r ∧ estimate p r ≤ r := by
  have h3 : (r + SIZE - p) % SIZE = r - p := by
    rw [show r + SIZE - p = (r - p) + SIZE by omega, Nat.add_mod_right, Nat.mod_eq_of_lt (by omega)]
  have h4 : p + (r - p) / 8 < SIZE := by have := Nat.div_le_self (r - p) 8; omega
  rw [estimate, h3, Nat.mod_eq_of_lt h4]
  have := Nat.div_le_self (r - p) 8
  omega

-- Threads 0 and 1 both see the lock free; one of them gets it, the other one after the release
example : ∃ s, Reach step (init false) s [.locked 0, .failed 2, .unlocked 0, .locked 1] ∧ (s.pc 0, s.pc 1, s.locked) = (.out, .inside, true) :=
  spin_run (a := init false) (f := fun s => (s.pc 0, s.pc 1, s.locked))
    (es := [.lock 0, .lock 1, .step 0, .step 1, .step 0, .step 1, .tryLock 2, .step 1, .unlock 0, .step 1, .step 1]) (by decide +kernel)

example : 3 ≤ 9 ∧ 9 < SIZE := by decide

end Ttas

/-! ## Spinlocks with futex -/

namespace Ftx

variable {s s' : State} {tr : List SlObs} {ad : Bool} {n : Nat} {t u : Who}

/-- The thread has got the lock and not given it back. -/
def Pc.own : Pc → Bool
  | .save _ _ => true
  | .inside => true
  | .zero => true
  | _ => false

/-- The thread will wake a sleeper, or is one that was woken. -/
def Pc.busy : Pc → Bool
  | .again _ _ => true
  | .zero => true
  | .wake => true
  | _ => false

def Pc.sleeps : Pc → Bool
  | .asleep _ _ => true
  | _ => false

structure Inv (s : State) (h : Option Who) : Prop where
  hold : ∀ t, h = some t ↔ s.pc t = .inside
  one : ∀ t u, (s.pc t).own = true → (s.pc u).own = true → t = u
  free : s.value = 0 → ∀ t, (s.pc t).own = false
  taken : s.value ≠ 0 → ∃ t, (s.pc t).own = true
  le : s.value ≤ 2
  slp : ∀ t, t ∈ s.sleepers ↔ (s.pc t).sleeps = true
  nd : s.sleepers.Nodup
  wk : s.sleepers ≠ [] → s.value = 2 ∨ ∃ u, (s.pc u).busy = true

theorem inv_init : Inv (init ad n) none := by
  constructor <;> simp [init, Pc.own, Pc.sleeps]

theorem exchange_cases (s : State) (t : Who) (p : Int) (r : Nat) :
    (s.value ≠ 0 ∧ exchange s t p r = ({ s with value := 2, pc := upd s.pc t (.wait p r) }, [])) ∨
    (s.value = 0 ∧ s.adaptive = true ∧ exchange s t p r = ({ s with value := 2, pc := upd s.pc t (.save p r) }, [])) ∨
    (s.value = 0 ∧ s.adaptive = false ∧ exchange s t p r = ({ s with value := 2, pc := upd s.pc t .inside }, [.locked t])) := by
  by_cases h : s.value = 0 <;> cases ha : s.adaptive <;> simp [exchange, got, h, ha]

set_option maxHeartbeats 2000000 in
theorem inv_step {h : Option Who} (hi : Inv s h) {e : Event} {o : List SlObs} (hs : step s e = some (s', o)) :
    Inv s' (o.foldl held h) ∧ o.length ≤ 1 ∧ (∀ t, o = [.locked t] → h = none) ∧ (∀ t, o = [.unlocked t] → h = some t) := by
  have hnone : (∀ t, (s.pc t).own = false) → h = none := by
    intro hf
    cases h with
    | none => rfl
    | some t => have := (hi.hold t).1 rfl; have h2 := hf t; rw [this] at h2; cases h2
  have hsave : ∀ t p r, s.pc t = .save p r → h = none := by
    intro t p r ht
    cases h with
    | none => rfl
    | some u =>
      have hu := (hi.hold u).1 rfl
      have := hi.one t u (by rw [ht]; rfl) (by rw [hu]; rfl)
      subst this; rw [ht] at hu; cases hu
  obtain ⟨i1, i2, i3, i4, i5, i6, i7, i8⟩ := hi
  cases e with
  | lock t =>
    simp only [step] at hs
    split at hs
    · simp only [Option.some.injEq, Prod.mk.injEq] at hs
      obtain ⟨rfl, rfl⟩ := hs
      have hst : ∀ b : Bool, (if b = true then Pc.prev else .loop 0 0 0).own = false ∧ (if b = true then Pc.prev else .loop 0 0 0) ≠ .inside ∧
        (if b = true then Pc.prev else .loop 0 0 0).sleeps = false ∧ (if b = true then Pc.prev else .loop 0 0 0).busy = false := by
        intro b; cases b <;> simp [Pc.own, Pc.sleeps, Pc.busy]
      refine ⟨⟨?_, ?_, ?_, ?_, ?_, ?_, ?_, ?_⟩, by simp, ?_, ?_⟩ <;> ((try simp only [List.foldl, held, upd_apply]); try grind [Pc.own, Pc.sleeps, Pc.busy])
    · cases hs
  | tryLock t =>
    simp only [step] at hs
    repeat' split at hs
    all_goals first
      | cases hs; done
      | skip
    all_goals (
      simp only [Option.some.injEq, Prod.mk.injEq] at hs
      obtain ⟨rfl, rfl⟩ := hs
      refine ⟨⟨?_, ?_, ?_, ?_, ?_, ?_, ?_, ?_⟩, by simp, ?_, ?_⟩ <;> ((try simp only [List.foldl, held, upd_apply]); try grind [Pc.own, Pc.sleeps, Pc.busy]))
  | unlock t =>
    simp only [step] at hs
    split at hs
    · rename_i ht
      have hv : s.value ≠ 0 := fun hz => by have := i3 hz t; rw [ht] at this; cases this
      simp only [Option.some.injEq, Prod.mk.injEq] at hs
      obtain ⟨rfl, rfl⟩ := hs
      by_cases h1 : s.value = 1
      · simp only [h1, if_true]
        refine ⟨⟨?_, ?_, ?_, ?_, ?_, ?_, ?_, ?_⟩, by simp, ?_, ?_⟩ <;> ((try simp only [List.foldl, held, upd_apply]); try grind [Pc.own, Pc.sleeps, Pc.busy])
      · have h2 : s.value = 2 := by omega
        simp only [h2]
        refine ⟨⟨?_, ?_, ?_, ?_, ?_, ?_, ?_, ?_⟩, by simp, ?_, ?_⟩ <;> ((try simp only [List.foldl, held, upd_apply]); try grind [Pc.own, Pc.sleeps, Pc.busy])
    · cases hs
  | wake t k =>
    simp only [step] at hs
    split at hs
    · rename_i ht
      split at hs
      · rename_i u hu
        have hmem : u ∈ s.sleepers := List.mem_of_getElem? hu
        have hk : k < s.sleepers.length := by rw [List.getElem?_eq_some_iff] at hu; exact hu.1
        have huk : s.sleepers[k] = u := by rw [List.getElem?_eq_some_iff] at hu; exact hu.2
        split at hs
        · rename_i p r hp
          simp only [Option.some.injEq, Prod.mk.injEq] at hs
          obtain ⟨rfl, rfl⟩ := hs
          have hmem' : ∀ x, x ∈ s.sleepers.eraseIdx k ↔ x ∈ s.sleepers ∧ x ≠ u := by
            intro x
            rw [List.mem_eraseIdx_iff_getElem]
            constructor
            · rintro ⟨j, hj, hne, hx⟩
              refine ⟨hx ▸ List.getElem_mem hj, fun he => hne ?_⟩
              exact (List.getElem_inj i7).1 (by rw [hx, huk, he])
            · rintro ⟨hx, hne⟩
              obtain ⟨j, hj, hx'⟩ := List.getElem_of_mem hx
              exact ⟨j, hj, fun he => hne (by subst he; rw [← hx', huk]), hx'⟩
          have hnd : (s.sleepers.eraseIdx k).Nodup := i7.sublist (List.eraseIdx_sublist ..)
          refine ⟨⟨?_, ?_, ?_, ?_, ?_, ?_, hnd, ?_⟩, by simp, by simp, by simp⟩
          · simp only [List.foldl, upd_apply]; grind
          · simp only [upd_apply]; grind [Pc.own]
          · simp only [upd_apply]; grind [Pc.own]
          · simp only [upd_apply]
            intro hv
            obtain ⟨x, hx⟩ := i4 hv
            refine ⟨x, ?_⟩
            grind [Pc.own]
          · exact i5
          · intro x; simp only [hmem', upd_apply]; grind [Pc.sleeps]
          · intro _; exact .inr ⟨u, by simp [Pc.busy]⟩
        · cases hs
      · split at hs
        · simp only [Option.some.injEq, Prod.mk.injEq] at hs
          obtain ⟨rfl, rfl⟩ := hs
          refine ⟨⟨?_, ?_, ?_, ?_, ?_, ?_, ?_, ?_⟩, by simp, ?_, ?_⟩ <;> ((try simp only [List.foldl, held, upd_apply]); try grind [Pc.own, Pc.sleeps, Pc.busy])
        · cases hs
    · cases hs
  | spurious t =>
    simp only [step] at hs
    split at hs
    · rename_i p r hp
      simp only [Option.some.injEq, Prod.mk.injEq] at hs
      obtain ⟨rfl, rfl⟩ := hs
      refine ⟨⟨?_, ?_, ?_, ?_, i5, ?_, i7.filter _, ?_⟩, by simp, by simp, by simp⟩
      · simp only [List.foldl, upd_apply]; grind
      · simp only [upd_apply]; grind [Pc.own]
      · simp only [upd_apply]; grind [Pc.own]
      · simp only [upd_apply]; grind [Pc.own]
      · intro x; simp only [List.mem_filter, decide_eq_true_eq, upd_apply]; grind [Pc.sleeps]
      · intro _; exact .inr ⟨t, by simp [Pc.busy]⟩
    · cases hs
  | step t =>
    simp only [step] at hs
    have hx : ∀ p r, s.pc t = .first p r ∨ s.pc t = .again p r → some (exchange s t p r) = some (s', o) →
        Inv s' (o.foldl held h) ∧ o.length ≤ 1 ∧ (∀ t, o = [.locked t] → h = none) ∧ (∀ t, o = [.unlocked t] → h = some t) := by
      intro p r hp hs
      have hnot : (s.pc t).own = false ∧ (s.pc t).sleeps = false ∧ s.pc t ≠ .inside := by rcases hp with hp | hp <;> simp [hp, Pc.own, Pc.sleeps]
      rcases exchange_cases s t p r with ⟨h1, h2⟩ | ⟨h1, h3, h2⟩ | ⟨h1, h3, h2⟩ <;>
      · rw [h2] at hs
        simp only [Option.some.injEq, Prod.mk.injEq] at hs
        obtain ⟨rfl, rfl⟩ := hs
        refine ⟨⟨?_, ?_, ?_, ?_, ?_, ?_, ?_, ?_⟩, by simp, ?_, ?_⟩ <;> ((try simp only [List.foldl, held, upd_apply]); try grind [Pc.own, Pc.sleeps, Pc.busy])
    split at hs
    case h_4 p r hp => exact hx p r (.inl hp) hs
    case h_6 p r hp => exact hx p r (.inr hp) hs
    case h_5 p r hp =>
      split at hs
      · rename_i hv
        simp only [Option.some.injEq, Prod.mk.injEq] at hs
        obtain ⟨rfl, rfl⟩ := hs
        have hn : t ∉ s.sleepers := fun hm => by have := (i6 t).1 hm; rw [hp] at this; cases this
        refine ⟨⟨?_, ?_, ?_, ?_, ?_, ?_, ?_, ?_⟩, by simp, by simp, by simp⟩
        · simp only [List.foldl, upd_apply]; grind
        · simp only [upd_apply]; grind [Pc.own]
        · simp only [upd_apply]; grind [Pc.own]
        · simp only [upd_apply]; grind [Pc.own]
        · exact i5
        · intro x; simp only [List.mem_append, List.mem_singleton, upd_apply]; grind [Pc.sleeps]
        · exact List.nodup_append.2 ⟨i7, by simp, by simp; grind⟩
        · intro _; exact .inl hv
      · simp only [Option.some.injEq, Prod.mk.injEq] at hs
        obtain ⟨rfl, rfl⟩ := hs
        refine ⟨⟨?_, ?_, ?_, ?_, ?_, ?_, ?_, ?_⟩, by simp, ?_, ?_⟩ <;> ((try simp only [List.foldl, held, upd_apply]); try grind [Pc.own, Pc.sleeps, Pc.busy])
    case h_3 p r hp =>
      split at hs
      · simp only [got] at hs
        split at hs <;>
        · simp only [Option.some.injEq, Prod.mk.injEq] at hs
          obtain ⟨rfl, rfl⟩ := hs
          refine ⟨⟨?_, ?_, ?_, ?_, ?_, ?_, ?_, ?_⟩, by simp, ?_, ?_⟩ <;> ((try simp only [List.foldl, held, upd_apply]); try grind [Pc.own, Pc.sleeps, Pc.busy])
      · simp only [Option.some.injEq, Prod.mk.injEq] at hs
        obtain ⟨rfl, rfl⟩ := hs
        refine ⟨⟨?_, ?_, ?_, ?_, ?_, ?_, ?_, ?_⟩, by simp, ?_, ?_⟩ <;> ((try simp only [List.foldl, held, upd_apply]); try grind [Pc.own, Pc.sleeps, Pc.busy])
    all_goals repeat' split at hs
    all_goals first
      | cases hs; done
      | skip
    all_goals (
      simp only [Option.some.injEq, Prod.mk.injEq] at hs
      obtain ⟨rfl, rfl⟩ := hs
      refine ⟨⟨?_, ?_, ?_, ?_, ?_, ?_, ?_, ?_⟩, by simp, ?_, ?_⟩ <;> ((try simp only [List.foldl, held, upd_apply]); try grind [Pc.own, Pc.sleeps, Pc.busy]))

theorem reach_inv (h : Reach step (init ad n) s tr) : Inv s (holder tr) ∧ Exclusive tr :=
  h.inv (fun s tr => Inv s (holder tr) ∧ Exclusive tr) ⟨inv_init, exclusive_nil⟩ (by
    intro s tr e s' o _ ⟨hi, hx⟩ hs
    obtain ⟨h1, h2, h3, h4⟩ := inv_step hi hs
    exact ⟨by rw [holder_append]; exact h1, exclusive_append hx h2 h3 h4⟩)

/-- The lock is only given to a thread while nobody holds it. -/
theorem exclusion (h : Reach step (init ad n) s tr) : Exclusive tr := (reach_inv h).2

/-- At most one thread is between `lock()` and `unlock()`. -/
theorem one_inside (h : Reach step (init ad n) s tr) (h1 : s.pc t = .inside) (h2 : s.pc u = .inside) : t = u :=
  (reach_inv h).1.one t u (by rw [h1]; rfl) (by rw [h2]; rfl)

/-- The lock variable is 0, 1 or 2; it is 0 exactly if nobody has the lock. -/
theorem zero_iff_free (h : Reach step (init ad n) s tr) : s.value ≤ 2 ∧ (s.value = 0 ↔ ∀ t, (s.pc t).own = false) := by
  have hi := (reach_inv h).1
  refine ⟨hi.le, hi.free, fun hf => Classical.byContradiction fun hv => ?_⟩
  obtain ⟨t, ht⟩ := hi.taken hv
  rw [hf t] at ht; cases ht

/-- `try_lock()` never waits, and fails exactly if another thread has the lock (or is still giving it back). -/
theorem try_exact (h : Reach step (init ad n) s tr) (ht : s.pc t = .out) :
    ((∃ u, (s.pc u).own = true) → ∃ s', step s (.tryLock t) = some (s', [.failed t])) ∧
    ((∀ u, (s.pc u).own = false) → ∃ s', step s (.tryLock t) = some (s', [.locked t])) := by
  have hi := (zero_iff_free h).2
  simp only [step, ht, if_true]
  refine ⟨fun ⟨u, hu⟩ => ?_, fun hf => ?_⟩
  · rw [if_neg (fun hv => by have := hi.1 hv u; rw [hu] at this; cases this)]; exact ⟨_, rfl⟩
  · rw [if_pos (hi.2 hf)]; exact ⟨_, rfl⟩

/-- If a thread is suspended and the lock is free, then either a thread in `unlock()` is about to wake a suspended thread, or
a woken thread is about to take the lock. -/
theorem release_reaches_sleeper (h : Reach step (init ad n) s tr) (ht : (s.pc t).sleeps = true) (hf : ∀ u, (s.pc u).own = false) :
    ∃ u, s.pc u = .wake ∨ ∃ p r, s.pc u = .again p r := by
  have hi := (reach_inv h).1
  have hne : s.sleepers ≠ [] := List.ne_nil_of_mem ((hi.slp t).2 ht)
  have hv : s.value = 0 := (zero_iff_free h).2.2 hf
  rcases hi.wk hne with h2 | ⟨u, hu⟩
  · omega
  · refine ⟨u, ?_⟩
    have := hf u
    cases hp : s.pc u <;> rw [hp] at hu this <;> simp_all [Pc.busy, Pc.own]

/-- Nobody is suspended for ever: when every thread that is inside a call is suspended and nobody holds the lock, then
no thread is inside a call at all. -/
theorem no_lost_wakeup (h : Reach step (init ad n) s tr) (hq : ∀ t, s.pc t = .out ∨ (s.pc t).sleeps = true) (t : Who) : s.pc t = .out := by
  rcases hq t with ht | ht
  · exact ht
  · obtain ⟨u, hu⟩ := release_reaches_sleeper h ht (fun u => by rcases hq u with hu | hu <;> cases hp : s.pc u <;> simp_all [Pc.own, Pc.sleeps])
    rcases hq u with hu' | hu' <;> rcases hu with hu | ⟨p, r, hu⟩ <;> rw [hu] at hu' <;> simp [Pc.sleeps] at hu'

/-- Every thread inside a call that is not suspended can take a step. -/
theorem awake_can_step (h : Reach step (init ad n) s tr) (h1 : s.pc t ≠ .out) (h2 : s.pc t ≠ .inside) (h3 : (s.pc t).sleeps = false) :
    (∃ r, step s (.step t) = some r) ∨ ∃ k r, step s (.wake t k) = some r := by
  have hi := (reach_inv h).1
  cases hp : s.pc t with
  | wake =>
    refine .inr ⟨0, ?_⟩
    simp only [step, hp, if_true]
    cases hl : s.sleepers with
    | nil => exact ⟨_, by simp; rfl⟩
    | cons u l =>
      have := (hi.slp u).1 (by simp [hl])
      cases hu : s.pc u <;> rw [hu] at this <;> simp_all [Pc.sleeps]
  | out => exact absurd hp h1
  | inside => exact absurd hp h2
  | asleep p r => rw [hp] at h3; cases h3
  | _ => left; simp only [step, hp]; repeat' split
         all_goals exact ⟨_, rfl⟩

/-- If the lock is free, a thread inside `lock()` that is not suspended gets it by at most five steps of its own. -/
theorem free_is_taken (hl : s.value = 0) (h1 : s.pc t ≠ .out) (h2 : s.pc t ≠ .inside) (h3 : (s.pc t).sleeps = false)
    (h4 : s.pc t ≠ .zero) (h5 : s.pc t ≠ .wake) : Gets step (.step t) t s 5 := by
  have save : ∀ (s : State) p r, s.pc t = .save p r → Gets step (.step t) t s 1 := by
    intro s p r hp
    exact Gets.last (s1 := { s with retries := p + Int.tdiv (r - p) 8, pc := upd s.pc t .inside }) (by simp [step, hp])
  have exch : ∀ (s : State) p r, s.value = 0 → (s.pc t = .first p r ∨ s.pc t = .again p r) → Gets step (.step t) t s 2 := by
    intro s p r hv hp
    have he : step s (.step t) = some (exchange s t p r) := by rcases hp with hp | hp <;> simp [step, hp]
    rcases exchange_cases s t p r with ⟨h1, h2⟩ | ⟨_, h3, h2⟩ | ⟨_, h3, h2⟩
    · exact absurd hv h1
    · rw [h2] at he; exact (save _ p r (by simp)).next he
    · rw [h2] at he; exact (Gets.last he).mono (by omega)
  have cas : ∀ (s : State) p r, s.value = 0 → s.pc t = .cas p r → Gets step (.step t) t s 2 := by
    intro s p r hv hp
    by_cases ha : s.adaptive = true
    · exact (save { s with value := 1, pc := upd s.pc t (.save p r) } p r (by simp)).next (by simp [step, hp, hv, got, ha])
    · exact Gets.mono (Gets.last (s1 := { s with value := 1, pc := upd s.pc t .inside }) (by simp [step, hp, hv, got, ha])) (by omega)
  have wait : ∀ (s : State) p r, s.value = 0 → s.pc t = .wait p r → Gets step (.step t) t s 3 := by
    intro s p r hv hp
    exact (exch { s with pc := upd s.pc t (.again p r) } p r hv (.inr (by simp))).next (by simp [step, hp, hv])
  have loop : ∀ (s : State) p r e, s.value = 0 → s.pc t = .loop p r e → Gets step (.step t) t s 4 := by
    intro s p r e hv hp
    by_cases hr : r < s.limit
    · exact ((cas { s with pc := upd s.pc t (.cas p (r + 1)) } p (r + 1) hv (by simp)).next (by simp [step, hp, hv, hr])).mono (by omega)
    · by_cases he : e = 2
      · exact (wait { s with pc := upd s.pc t (.wait p (r + 1)) } p (r + 1) hv (by simp)).next (by simp [step, hp, hr, he])
      · exact ((exch { s with pc := upd s.pc t (.first p (r + 1)) } p (r + 1) hv (.inl (by simp))).next (by simp [step, hp, hr, he])).mono (by omega)
  cases hp : s.pc t with
  | out => exact absurd hp h1
  | inside => exact absurd hp h2
  | asleep p r => rw [hp] at h3; cases h3
  | zero => exact absurd hp h4
  | wake => exact absurd hp h5
  | prev => exact (loop { s with pc := upd s.pc t (.loop s.retries 0 0) } s.retries 0 0 hl (by simp)).next (by simp [step, hp])
  | loop p r e => exact (loop s p r e hl hp).mono (by omega)
  | cas p r => exact (cas s p r hl hp).mono (by omega)
  | first p r => exact (exch s p r hl (.inl hp)).mono (by omega)
  | wait p r => exact (wait s p r hl hp).mono (by omega)
  | again p r => exact (exch s p r hl (.inr hp)).mono (by omega)
  | save p r => exact (save s p r hp).mono (by omega)

/-! ### The estimate -/

/-- The numbers a thread carries along in `lock()`. -/
def Pc.nums : Pc → Option (Int × Nat)
  | .loop p r _ => some (p, r)
  | .cas p r => some (p, r)
  | .first p r => some (p, r)
  | .wait p r => some (p, r)
  | .asleep p r => some (p, r)
  | .again p r => some (p, r)
  | .save p r => some (p, r)
  | _ => none

structure Est (s : State) (n : Nat) : Prop where
  lim : s.limit = n
  est : 0 ≤ s.retries ∧ s.retries ≤ n + 1
  pr : ∀ t p r, (s.pc t).nums = some (p, r) → 0 ≤ p ∧ p ≤ n + 1 ∧ r ≤ n + 1
  cas : ∀ t p r, s.pc t = .cas p r → r ≤ n
  loop : ∀ t p r e, s.pc t = .loop p r e → r ≤ n

theorem tdiv_between {p : Int} {r n : Nat} (h1 : 0 ≤ p) (h2 : p ≤ n + 1) (h3 : r ≤ n + 1) :
    0 ≤ p + Int.tdiv (r - p) 8 ∧ p + Int.tdiv (r - p) 8 ≤ n + 1 := by
  by_cases h : p ≤ r
  · rw [Int.tdiv_eq_ediv_of_nonneg (by omega)]; omega
  · have h4 : Int.tdiv (r - p) 8 = -((p - r) / 8) := by
      rw [show ((r : Int) - p) = -(p - r) by omega, Int.neg_tdiv, Int.tdiv_eq_ediv_of_nonneg (by omega)]
    rw [h4]; omega

theorem est_step (hi : Est s n) {e : Event} {o : List SlObs} (hs : step s e = some (s', o)) : Est s' n := by
  obtain ⟨i1, i2, i3, i4, i5⟩ := hi
  simp only [step] at hs
  split at hs
  all_goals repeat' split at hs
  all_goals (try simp only [exchange, got] at hs)
  all_goals repeat' split at hs
  all_goals first
    | cases hs; done
    | skip
  all_goals (
    simp only [Option.some.injEq, Prod.mk.injEq] at hs
    obtain ⟨rfl, rfl⟩ := hs
    refine ⟨?_, ?_, ?_, ?_, ?_⟩)
  all_goals first
    | assumption
    | (rename_i hp; have := i3 _ _ _ (by rw [hp]; rfl); exact tdiv_between this.1 this.2.1 this.2.2)
    | ((try simp only [upd_apply]); try grind [Pc.nums, tdiv_between])

/-- The estimate of `spinlock_ttas_adaptive_futex` stays within the number of retries of a single `lock()`. -/
theorem estimate_bounded (h : Reach step (init ad n) s tr) : 0 ≤ s.retries ∧ s.retries ≤ n + 1 := by
  have : Est s n := h.inv (fun s _ => Est s n) ⟨rfl, by simp [init]; omega, by simp [init, Pc.nums], by simp [init], by simp [init]⟩
    (fun _ _ _ _ _ _ hi hs => est_step hi hs)
  exact this.est

/-! ### Examples -/

-- Thread 1 gives up spinning and sleeps; thread 0 releases, wakes it, and thread 1 gets the lock
example : ∃ s, Reach step (init false 1) s [.locked 0, .unlocked 0] ∧ (s.pc 0, s.pc 1, s.value, s.sleepers) = (.wake, .asleep 0 2, 0, [1]) :=
  spin_run (a := init false 1) (f := fun s => (s.pc 0, s.pc 1, s.value, s.sleepers))
    (es := [.tryLock 0, .lock 1, .step 1, .step 1, .step 1, .step 1, .unlock 0, .step 0]) (by decide +kernel)

example : ∃ s, Reach step (init false 1) s [.locked 0, .unlocked 0, .locked 1] ∧ (s.pc 0, s.pc 1, s.value, s.sleepers) = (.out, .inside, 2, []) :=
  spin_run (a := init false 1) (f := fun s => (s.pc 0, s.pc 1, s.value, s.sleepers))
    (es := [.tryLock 0, .lock 1, .step 1, .step 1, .step 1, .step 1, .unlock 0, .step 0, .wake 0 0, .step 1]) (by decide +kernel)

-- `estimate_bounded`: the adaptive variant
example : ∃ s, Reach step (init true 64) s [.locked 0, .unlocked 0, .locked 1] ∧ (s.pc 1, s.retries) = (.inside, 2) :=
  spin_run (a := init true 64) (f := fun s => (s.pc 1, s.retries))
    (es := [.tryLock 0, .lock 1] ++ List.replicate 20 (.step 1) ++ [.unlock 0, .step 1, .step 1, .step 1]) (by decide +kernel)

end Ftx

end Verif
