import Verif.WeakFiberStr

/-!
# Fibers under weak memory: knowledge stays where it belongs
-/

namespace Verif.WeakFiber

open Weak

variable {s s' : State} {pl pl' : Fib → Place} {o : Order} {w : Nat} {m : Mem} {a : After} {k : Ret} {f g h' n : Fib} {e j v t x : Nat}
variable {l : List Fib} {xs : List Nat} {p' : Ph} {q : List (Fib × Nat)}

theorem tok_fun {x : Nat} {k k' : Who} (h : Tok s pl x k) (h' : Tok s pl x k') : k = k' := by
  generalize hy : x = y at h'
  cases h with
  | prv f h =>
    cases h' with
    | prv f' h' => simp only [prv_inj] at hy; subst hy; exact Option.some.inj (h.symm.trans h')
    | _ => simp at hy
  | wk f h =>
    cases h' with
    | wk f' h' => simp only [wk_inj] at hy; subst hy; exact Option.some.inj (h.symm.trans h')
    | _ => simp at hy
  | wq f => cases h' <;> simp_all
  | rq f => cases h' <;> simp_all
  | ql f => cases h' <;> simp_all

theorem hold_same (hph : s'.ph = upd s.ph w p') (hlk : ∀ l, l ∈ p'.locks w ↔ l ∈ (s.ph w).locks w) (l u : Nat) : s'.hold l u ↔ s.hold l u := by
  simp only [State.hold, hph, upd_apply]
  split
  · rename_i hu; subst hu; exact hlk l
  · exact Iff.rfl

theorem hold_more (hph : s'.ph = upd s.ph w p') {l0 : Nat} (hlk : ∀ l, l ∈ p'.locks w ↔ (l ∈ (s.ph w).locks w ∨ l = l0)) (l u : Nat) :
    s'.hold l u ↔ (s.hold l u ∨ (l = l0 ∧ u = w)) := by
  simp only [State.hold, hph, upd_apply]
  split
  · rename_i hu; subst hu; simp [hlk]
  · rename_i hu; simp [hu]

/-- Thread `w` uses data of the library. -/
theorem Mi.lib (hi : Mi s pl o) (hm : s'.mem = (touches s.mem w xs).2) (hph : s'.ph = upd s.ph w p')
    (hlk : ∀ l, l ∈ p'.locks w ↔ l ∈ (s.ph w).locks w)
    (hus : ∀ x, US x ∉ xs)
    (hsafe : ∀ x ∈ xs, s.mem.last x ≤ s.mem.cur w x)
    (hmine : ∀ x ∈ xs, ∀ k, Tok s' pl' x k → Mine s w k)
    (htok : ∀ x k, x ∉ xs → Tok s' pl' x k → Tok s pl x k ∨ (Mine s w k ∧ ∃ k0, Tok s pl x k0 ∧ Mine s w k0))
    (hcar : ∀ f k, Car s' pl' f k → Car s pl f k ∨ (Mine s w k ∧ ∃ k0, Car s pl f k0 ∧ Mine s w k0))
    (hfr : ∀ f, pinned f = false → s'.born f = false → PRV f ∉ xs ∧ WK f ∉ xs ∧ s.born f = false) :
    Mi s' pl' o ∧ (touches s.mem w xs).1 = false := by
  have hu := touches_spec (m := s.mem) (w := w) (xs := xs) (b := (touches s.mem w xs).1) (m' := (touches s.mem w xs).2) rfl
  have hh := hold_same hph hlk
  refine ⟨hi.next w xs ?_ ?_ ?_ hus ?_ htok hcar hfr, hu.race hsafe⟩
  · refine Next.quiet hi.locks (fun l _ => ?_) ?_ (fun l u _ => hh l u)
    · rw [hm, hu.msg]
    · rw [hm]; exact hu.mono
  · rw [hm]; exact hu.last
  · rw [hm]; exact hu.new
  · intro x hx k hk
    rcases hmine x hx k hk with h1 | ⟨l, h1, h2, h3⟩
    · exact .inl h1
    · exact .inr ⟨l, h1, h2, (hh l w).2 h3⟩

theorem mine_thr : Mine s w (.thr w) := .inl rfl

theorem mine_of {l : Nat} (hl : isLock l) (hh : l ∈ (s.ph w).locks w) : Mine s w (.lock l) := .inr ⟨l, rfl, hl, hh⟩

/-- Nothing moves. -/
theorem Mi.lib0 (hi : Mi s pl o) (hm : s'.mem = (touches s.mem w xs).2) (hph : s'.ph = upd s.ph w p')
    (h1 : s'.sched = s.sched) (h2 : s'.cont = s.cont) (h3 : s'.term = s.term) (h4 : s'.born = s.born)
    (hlk : ∀ l, l ∈ p'.locks w ↔ l ∈ (s.ph w).locks w)
    (hs : Str s' pl) (hown : ∀ x ∈ xs, ∃ k, Tok s pl x k ∧ Mine s w k) :
    Mi s' pl o ∧ (touches s.mem w xs).1 = false := by
  have hb : ∀ f, base s' pl f = base s pl f := fun f => by simp only [base, h1]
  have ht : ∀ x k, Tok s' pl x k → Tok s pl x k := by
    intro x k hk
    cases hk with
    | prv f h => exact .prv f ((hb f) ▸ h)
    | wk f h => exact .wk f h
    | wq f => exact .wq f
    | rq f => exact .rq f
    | ql f => exact .ql f
  refine hi.lib hm hph hlk ?_ ?_ ?_ ?_ ?_ ?_
  · intro x hx
    obtain ⟨k, hk, _⟩ := hown _ hx
    exact tok_us hk
  · intro x hx
    obtain ⟨k, hk, h5⟩ := hown _ hx
    exact hi.safe hk h5
  · intro x hx k hk
    obtain ⟨k', hk', h5⟩ := hown _ hx
    rw [tok_fun (ht x k hk) hk']; exact h5
  · exact fun x k _ hk => .inl (ht x k hk)
  · intro f k hk
    cases hk with
    | base h => exact .inl (.base ((hb f) ▸ h))
    | cont h5 h6 h7 => exact .inl (.cont (h2 ▸ h5) h6 h7)
    | term h5 => exact .inl (.term (h3 ▸ h5))
  · intro f h5 h6
    obtain ⟨h7, h8, _⟩ := hs.new f h5 h6
    refine ⟨fun hx => ?_, fun hx => ?_, h4 ▸ h6⟩
    · obtain ⟨k, hk, _⟩ := hown _ hx
      generalize hy : PRV f = y at hk
      cases hk with
      | prv f' h =>
        simp only [prv_inj] at hy; subst hy
        rw [← hb] at h
        simp [base, h8, h7, Place.who] at h
      | _ => simp at hy
    · obtain ⟨k, hk, _⟩ := hown _ hx
      generalize hy : WK f = y at hk
      cases hk with
      | wk f' h =>
        simp only [wk_inj] at hy; subst hy
        simp [h7, Place.who] at h
      | _ => simp at hy

/-- What belongs to fiber `n` moves, between a thread and its locks. -/
theorem Mi.shift (hi : Mi s pl o) (w : Nat) (n : Fib) (hm : s'.mem = s.mem) (hph : s'.ph = s.ph) (hb : s'.born = s.born) (ht : s'.term = s.term)
    (h1 : ∀ f, f ≠ n → s'.sched f = s.sched f ∧ s'.cont f = s.cont f ∧ pl' f = pl f)
    (hbase : ∀ k, base s' pl' n = some k → base s pl n = some k ∨ (Mine s w k ∧ ∃ k0, base s pl n = some k0 ∧ Mine s w k0))
    (hwk : ∀ k, (pl' n).who = some k → (pl n).who = some k ∨ (Mine s w k ∧ ∃ k0, (pl n).who = some k0 ∧ Mine s w k0))
    (hcont : ∀ g k, s'.cont n = some g → (pl' n).waits = false → (pl' n).who = some k → Car s pl g k ∨ (Mine s w k ∧ ∃ k0, Car s pl g k0 ∧ Mine s w k0)) :
    Mi s' pl' o := by
  have hh : ∀ l u, s'.hold l u ↔ s.hold l u := fun l u => by simp only [State.hold, hph]
  have hbo : ∀ f, f ≠ n → base s' pl' f = base s pl f := fun f hf => by simp only [base, (h1 f hf).1, (h1 f hf).2.2]
  refine hi.next w [] ?_ (fun _ _ => by rw [hm]) (by simp) (by simp) (by simp) ?_ ?_ (fun f _ h => by simpa [hb] using h)
  · rw [hm]; exact Next.quiet hi.locks (fun _ _ => rfl) (fun _ _ => Nat.le_refl _) (fun l u _ => hh l u)
  · intro x k _ hk
    cases hk with
    | prv f h =>
      by_cases hf : f = n
      · subst hf
        rcases hbase k h with h2 | ⟨h2, k0, h3, h4⟩
        · exact .inl (.prv f h2)
        · exact .inr ⟨h2, k0, .prv f h3, h4⟩
      · rw [hbo f hf] at h; exact .inl (.prv f h)
    | wk f h =>
      by_cases hf : f = n
      · subst hf
        rcases hwk k h with h2 | ⟨h2, k0, h3, h4⟩
        · exact .inl (.wk f h2)
        · exact .inr ⟨h2, k0, .wk f h3, h4⟩
      · rw [(h1 f hf).2.2] at h; exact .inl (.wk f h)
    | wq f => exact .inl (.wq f)
    | rq f => exact .inl (.rq f)
    | ql f => exact .inl (.ql f)
  · intro f k hk
    cases hk with
    | base h =>
      by_cases hf : f = n
      · subst hf
        rcases hbase k h with h2 | ⟨h2, k0, h3, h4⟩
        · exact .inl (.base h2)
        · exact .inr ⟨h2, k0, .base h3, h4⟩
      · rw [hbo f hf] at h; exact .inl (.base h)
    | @cont h _ h5 h6 h7 =>
      by_cases hf : h = n
      · subst hf; exact hcont f k h5 h6 h7
      · obtain ⟨_, h8, h9⟩ := h1 h hf
        rw [h9] at h6 h7; rw [h8] at h5
        exact .inl (.cont h5 h6 h7)
    | term h5 => exact .inl (.term (ht ▸ h5))

/-- Nothing moves, and nothing but the phase depends on the lock. -/
theorem Mi.keep (hi : Mi s pl o) (hn : Next isLock s.mem s.hold s'.mem s'.hold) (hl : s'.mem.last = s.mem.last)
    (h1 : s'.sched = s.sched) (h2 : s'.cont = s.cont) (h3 : s'.term = s.term) (h4 : s'.born = s.born) : Mi s' pl o := by
  refine hi.next 0 [] hn (fun y _ => by rw [hl]) (by simp) (by simp) (by simp) ?_ ?_ (fun f _ h => by simpa [h4] using h)
  · intro x k _ hk
    cases hk with
    | prv f h => exact .inl (.prv f (by simpa only [base, h1] using h))
    | wk f h => exact .inl (.wk f h)
    | wq f => exact .inl (.wq f)
    | rq f => exact .inl (.rq f)
    | ql f => exact .inl (.ql f)
  · intro f k hk
    cases hk with
    | base h => exact .inl (.base (by simpa only [base, h1] using h))
    | cont h5 h6 h7 => exact .inl (.cont (h2 ▸ h5) h6 h7)
    | term h5 => exact .inl (.term (h3 ▸ h5))

/-- A lock is taken. -/
theorem Mi.take (hi : Mi s pl o) {l v : Nat} (hr : rmw s.mem w l t (fun _ => 1) true false = some (v, m)) (hv : v = 0) (hl : isLock l)
    (hlk : ∀ l', l' ∈ p'.locks w ↔ (l' ∈ (s.ph w).locks w ∨ l' = l)) : Mi { s with mem := m, ph := upd s.ph w p' } pl o := by
  obtain ⟨g, hr⟩ := rmw_spec hr
  have h1 := Next.take (h' := State.hold { s with mem := m, ph := upd s.ph w p' }) hi.locks hr hl hv (by simp)
    (fun l u _ => hold_more (s := s) (s' := { s with mem := m, ph := upd s.ph w p' }) rfl hlk l u)
  exact hi.keep h1.2 hr.last rfl rfl rfl rfl

/-- A lock is not free. -/
theorem Mi.bump (hi : Mi s pl o) {l v : Nat} (hr : rmw s.mem w l t (fun _ => 1) true false = some (v, m)) (hv : v ≠ 0) (hl : isLock l) :
    Mi { s with mem := m } pl o := by
  obtain ⟨g, hr⟩ := rmw_spec hr
  exact hi.keep (Next.bump hi.locks hr hl hv (by simp) (fun _ _ _ => Iff.rfl)) hr.last rfl rfl rfl rfl

/-- A lock is released. -/
theorem Mi.put (hi : Mi s pl o) {l : Nat} (hr : store s.mem w l t 0 true = some m) (hl : isLock l) (hw : l ∈ (s.ph w).locks w)
    (hlk : ∀ l', l' ∈ p'.locks w ↔ (l' ∈ (s.ph w).locks w ∧ l' ≠ l)) : Mi { s with mem := m, ph := upd s.ph w p' } pl o := by
  have hr := store_spec hr
  refine hi.keep (Next.put hi.locks hr hl hw ?_) hr.last rfl rfl rfl rfl
  intro l' u hl'
  simp only [State.hold, upd_apply]
  split
  · rename_i hu; subst hu; exact hlk l'
  · rename_i hu
    refine ⟨fun h => ⟨h, ?_⟩, (·.1)⟩
    rintro rfl
    exact hu ((hi.locks l' hl).one u w h hw)

/-- Another atomic operation. -/
theorem Mi.other (hi : Mi s pl o) (hm : ∀ l, isLock l → m.msg l = s.mem.msg l) (hc : ∀ u y, s.mem.cur u y ≤ m.cur u y) (hl : m.last = s.mem.last)
    (hlk : ∀ l', l' ∈ p'.locks w ↔ l' ∈ (s.ph w).locks w) : Mi { s with mem := m, ph := upd s.ph w p' } pl o :=
  hi.keep (Next.quiet hi.locks hm hc (fun l u _ => hold_same (s := s) (s' := { s with mem := m, ph := upd s.ph w p' }) rfl hlk l u)) hl rfl rfl rfl rfl

/-- No memory operation. -/
theorem Mi.idle (hi : Mi s pl o) (hlk : ∀ l', l' ∈ p'.locks w ↔ l' ∈ (s.ph w).locks w) : Mi { s with ph := upd s.ph w p' } pl o :=
  hi.other (m := s.mem) (fun _ _ => rfl) (fun _ _ => Nat.le_refl _) rfl hlk

/-! ## Who has what -/

theorem tok_here (hs : Str s pl) (hf : f ∈ (s.ph w).here) : ∃ k, Tok s pl (PRV f) k ∧ Mine s w k :=
  ⟨.thr w, .prv f (by simp only [base, hs.here w f hf]), mine_thr⟩

theorem tok_carry (hs : Str s pl) (hf : f ∈ (s.ph w).carry) : ∃ k, Tok s pl (WK f) k ∧ Mine s w k :=
  ⟨.thr w, .wk f (by simp only [hs.car w f hf, Place.who]), mine_thr⟩

theorem tok_wq (hf : SPL f ∈ (s.ph w).locks w) : ∃ k, Tok s pl (WQ f) k ∧ Mine s w k := ⟨_, .wq f, mine_of (lock_spl f) hf⟩
theorem tok_rq (hf : RS v ∈ (s.ph w).locks w) : ∃ k, Tok s pl (RQ v) k ∧ Mine s w k := ⟨_, .rq v, mine_of (lock_rs v) hf⟩
theorem tok_ql (hf : QS j ∈ (s.ph w).locks w) : ∃ k, Tok s pl (QL j) k ∧ Mine s w k := ⟨_, .ql j, mine_of (lock_qs j) hf⟩

theorem tok_inwq (hs : Str s pl) (hf : SPL g ∈ (s.ph w).locks w) {r : Fib × Nat} (hq : r ∈ s.wq g) : ∃ k, Tok s pl (WK r.1) k ∧ Mine s w k :=
  ⟨_, .wk r.1 (by simp only [(hs.wq g r hq).1, Place.who]), mine_of (lock_spl g) hf⟩

theorem tok_inrq (hs : Str s pl) (hf : RS v ∈ (s.ph w).locks w) (hq : f ∈ s.rq v) : ∃ k, Tok s pl (WK f) k ∧ Mine s w k :=
  ⟨_, .wk f (by simp only [(hs.rq v f hq).1, Place.who]), mine_of (lock_rs v) hf⟩

/-- Fibers that have not been launched are with nobody. -/
theorem not_new (hs : Str s pl) (hf : pinned f = false) (hb : s.born f = false) (hn : f ∈ (s.ph w).here ∨ pl f ≠ .nil) : False := by
  obtain ⟨h1, h2, _⟩ := hs.new f hf hb
  rcases hn with h3 | h3
  · have := hs.here w f h3; rw [h2] at this; cases this
  · exact h3 h1

end Verif.WeakFiber
