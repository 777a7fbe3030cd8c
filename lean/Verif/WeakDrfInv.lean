import Verif.WeakDrf
import Verif.RtmInv

/-!
# Programs with locks on weak memory: the invariant
-/

namespace Verif.WeakDrf

open Verif.Weak
open Verif.Rtm (Tid Lock Addr Req Done Hist Prog mine owner value Legal Allowed holding owner_iff)

theorem mine_cons_same (t : Tid) (d : Done) (h : Hist) : mine ((t, d) :: h) t = d :: mine h t := by simp [mine]

theorem mine_cons_other {t u : Tid} (hu : u ≠ t) (d : Done) (h : Hist) : mine ((t, d) :: h) u = mine h u := by
  have : ¬ t = u := fun h => hu h.symm
  simp [mine, this]

/-- Even locations are locks. -/
def isL (x : Nat) : Prop := x % 2 = 0

/-- Who has the lock at location `x`. -/
def has (h : Hist) (x w : Nat) : Prop := owner h (x / 2) = some w

theorem has_lk {h : Hist} {l : Lock} {w : Nat} : has h (lk l) w ↔ owner h l = some w := by
  unfold has lk; rw [Nat.mul_div_cancel_left _ (by omega)]

theorem isL_lk (l : Lock) : isL (lk l) := by unfold isL lk; omega

theorem lk_half {x : Nat} (h : isL x) : lk (x / 2) = x := by unfold isL at h; unfold lk; omega

theorem lk_inj {k l : Lock} (h : lk k = lk l) : k = l := by unfold lk at h; exact Nat.eq_of_mul_eq_mul_left (by omega) h

theorem pair_inj : ∀ {a b i j : Nat}, pair a i = pair b j → a = b ∧ i = j
  | 0, 0, i, j, h => by simp only [pair] at h; omega
  | 0, b + 1, i, j, h => by
    exfalso
    simp only [pair, Nat.pow_zero, Nat.one_mul, Nat.pow_succ, Nat.mul_comm _ 2, Nat.mul_assoc] at h
    generalize 2 ^ b * (2 * j + 1) = x at h
    omega
  | a + 1, 0, i, j, h => by
    exfalso
    simp only [pair, Nat.pow_zero, Nat.one_mul, Nat.pow_succ, Nat.mul_comm _ 2, Nat.mul_assoc] at h
    generalize 2 ^ a * (2 * i + 1) = x at h
    omega
  | a + 1, b + 1, i, j, h => by
    have : pair a i = pair b j := by
      unfold pair
      simp only [pair, Nat.pow_succ, Nat.mul_comm _ 2, Nat.mul_assoc] at h
      generalize 2 ^ a * (2 * i + 1) = x at h ⊢
      generalize 2 ^ b * (2 * j + 1) = y at h ⊢
      omega
    have := pair_inj this
    omega

theorem odd_inj {x y : Nat} (h : 2 * x + 1 = 2 * y + 1) : x = y := by omega

theorem wr_inj {a b : Addr} (h : wr a = wr b) : a = b := (pair_inj (odd_inj h)).1

theorem rd_inj {a b : Addr} {t u : Tid} (h : rd a t = rd b u) : a = b ∧ t = u :=
  have := pair_inj (odd_inj h)
  ⟨this.1, Nat.succ.inj this.2⟩

theorem wr_rd (a b : Addr) (t : Tid) : wr a ≠ rd b t := fun h => by
  have := (pair_inj (odd_inj h)).2
  simp at this

/-- A right as knowledge: the one who has the right knows all accesses. -/
def who : Right → Who
  | .thread t => .thr t
  | .lock l => .lock (lk l)

theorem who_isL (r : Right) : ∀ l, who r = .lock l → isL l := by
  intro l h
  cases r with
  | thread t => cases h
  | lock k => cases h; exact isL_lk k

/-- The property of rights that `Disciplined` asks for. -/
def Rights (prog : Prog) (right : Hist → Addr → Nat → Right) : Prop :=
  ∀ t d h, Legal prog ((t, d) :: h) →
    (∀ a v, d = .got a v → ∃ i, right h a i = .thread t) ∧ (∀ a v, d = .put a v → ∀ i, right h a i = .thread t) ∧
      ∀ a i, Moves t d (right h a i) (right ((t, d) :: h) a i)

/-- It is enough to say who has all shares. -/
theorem Disciplined.of_one {prog : Prog} (right : Hist → Addr → Right)
    (h : ∀ t d h, Legal prog ((t, d) :: h) → (∀ a v, d = .got a v ∨ d = .put a v → right h a = .thread t) ∧ ∀ a, Moves t d (right h a) (right ((t, d) :: h) a)) :
    Disciplined prog :=
  ⟨fun h a _ => right h a, fun t d h' hl =>
    ⟨fun a v hd => ⟨0, (h t d h' hl).1 a v (.inl hd)⟩, fun a v hd _ => (h t d h' hl).1 a v (.inr hd), fun a _ => (h t d h' hl).2 a⟩⟩

structure Inv (prog : Prog) (right : Hist → Addr → Nat → Right) (s : State) : Prop where
  legal : Legal prog s.hist
  ub : s.ub = false
  data : ∀ a, s.data a = value s.hist a
  locks : Locks isL s.mem (has s.hist)
  /-- who has a share knows all writes -/
  know : ∀ a i, Kn s.mem (has s.hist) (who (right s.hist a i)) (wr a) (s.mem.last (wr a))
  /-- the reads of a thread are known with some share -/
  reads : ∀ a u, ∃ i, Kn s.mem (has s.hist) (who (right s.hist a i)) (rd a u) (s.mem.last (rd a u))
  pc : ∀ t l, (s.pc t = .test l ∨ s.pc t = .xchg l) → prog t (mine s.hist t) = some (.lock l)

variable {prog : Prog} {right : Hist → Addr → Nat → Right}

theorem inv_init : Inv prog right init where
  legal := trivial
  ub := rfl
  data := fun _ => rfl
  locks := fun l _ => Weak.Lock.init.congr fun w => by simp [init, has, owner]
  know := fun a i => Kn.zero
  reads := fun a u => ⟨0, Kn.zero⟩
  pc := fun t l h => by simp [init] at h

/-- The lock operations: who knew something knows it still, and the rights go along. -/
theorem know_next {m m' : Mem} {h : Hist} {t : Tid} {d : Done} {r r' : Right} {x n : Nat} (hk : Kn m (has h) (who r) x n)
    (hl : Locks isL m (has h)) (hn : Next isL m (has h) m' (has ((t, d) :: h))) (hm : Moves t d r r')
    (hrel : ∀ l, d = .released l → owner h l = some t) : Kn m' (has ((t, d) :: h)) (who r') x n := by
  rcases hm with rfl | ⟨l, rfl, rfl, rfl⟩ | ⟨l, rfl, rfl, rfl⟩
  · exact hn.kn _ _ _ (who_isL _) hk
  · have := hn.kn _ _ _ (who_isL _) hk
    exact Kn.get this (has_lk.2 (by simp [owner]))
  · have h1 : has h (lk l) t := has_lk.2 (hrel l rfl)
    exact hn.kn _ _ _ (who_isL (.lock l)) (Kn.put hk h1 (hl _ (isL_lk l)))

/-- Knowledge of all data accesses, in both senses. -/
def Knows (right : Hist → Addr → Nat → Right) (m : Mem) (h : Hist) : Prop :=
  (∀ a i, Kn m (has h) (who (right h a i)) (wr a) (m.last (wr a))) ∧ ∀ a u, ∃ i, Kn m (has h) (who (right h a i)) (rd a u) (m.last (rd a u))

theorem knows_next {m m' : Mem} {h : Hist} {t : Tid} {d : Done} (hk : Knows right m h) (hlast : m'.last = m.last)
    (hl : Locks isL m (has h)) (hn : Next isL m (has h) m' (has ((t, d) :: h))) (hm : ∀ a i, Moves t d (right h a i) (right ((t, d) :: h) a i))
    (hrel : ∀ l, d = .released l → owner h l = some t) : Knows right m' ((t, d) :: h) := by
  refine ⟨fun a i => ?_, fun a u => ?_⟩
  · rw [hlast]; exact know_next (hk.1 a i) hl hn (hm a i) hrel
  · obtain ⟨i, hi⟩ := hk.2 a u
    exact ⟨i, by rw [hlast]; exact know_next hi hl hn (hm a i) hrel⟩

theorem knows_same {m m' : Mem} {h : Hist} (hk : Knows right m h) (hlast : m'.last = m.last) (hn : Next isL m (has h) m' (has h)) : Knows right m' h := by
  refine ⟨fun a i => ?_, fun a u => ?_⟩
  · rw [hlast]; exact hn.kn _ _ _ (who_isL _) (hk.1 a i)
  · obtain ⟨i, hi⟩ := hk.2 a u
    exact ⟨i, by rw [hlast]; exact hn.kn _ _ _ (who_isL _) hi⟩

theorem inv_step {s s' : State} {t ts : Nat} {o : List Unit} (hp : Unlocks prog) (hR : Rights prog right) (hi : Inv prog right s)
    (hs : step prog s (t, ts) = some (s', o)) : Inv prog right s' := by
  obtain ⟨hleg, hub, hdat, hlk, hkn, hrd, hpc⟩ := hi
  have hK : Knows right s.mem s.hist := ⟨hkn, hrd⟩
  have hpc' : ∀ {d : Done} {f : Tid → Pc}, (∀ u, u ≠ t → f u = s.pc u) → f t = .run → ∀ u l, (f u = .test l ∨ f u = .xchg l) →
      prog u (mine ((t, d) :: s.hist) u) = some (.lock l) := by
    intro d f h1 h2 u l h3
    by_cases hu : u = t
    · subst hu; rw [h2] at h3; simp at h3
    · rw [mine_cons_other hu]; rw [h1 u hu] at h3; exact hpc u l h3
  have hpc'' : ∀ {f : Tid → Pc} {l}, (∀ u, u ≠ t → f u = s.pc u) → (f t = .test l ∨ f t = .xchg l) → prog t (mine s.hist t) = some (.lock l) →
      ∀ u k, (f u = .test k ∨ f u = .xchg k) → prog u (mine s.hist u) = some (.lock k) := by
    intro f l h1 h2 h3 u k h4
    by_cases hu : u = t
    · subst hu
      have : k = l := by rcases h2 with h2 | h2 <;> rw [h2] at h4 <;> simp at h4 <;> exact h4.symm
      rw [this]; exact h3
    · rw [h1 u hu] at h4; exact hpc u k h4
  -- taking a lock
  have htake : ∀ {l m}, exchange s.mem t l ts = some (0, m) →
      (prog t (mine s.hist t) = some (.lock l) ∨ prog t (mine s.hist t) = some (.tryLock l)) →
      Legal prog ((t, .acquired l) :: s.hist) ∧ Locks isL m (has ((t, .acquired l) :: s.hist)) ∧ Knows right m ((t, .acquired l) :: s.hist) := by
    intro l m h1 h2
    obtain ⟨g, hg⟩ := rmw_spec h1
    have hfree : ∀ u, ¬ has s.hist (lk l) u := ((hlk _ (isL_lk l)).take hg rfl (by simp)).1
    have hno : owner s.hist l = none := by
      cases h3 : owner s.hist l with
      | none => rfl
      | some u => exact absurd (has_lk.2 h3) (hfree u)
    have hL : Legal prog ((t, .acquired l) :: s.hist) := ⟨⟨h2, hno⟩, hleg⟩
    have hN := (Next.take (h' := has ((t, .acquired l) :: s.hist)) hlk hg (isL_lk l) rfl (by simp) (by
      intro x u hx
      by_cases he : x = lk l
      · subst he
        simp only [has_lk, owner, if_true, hno]
        simp [eq_comm]
      · have h5 : l ≠ x / 2 := fun h => he (by rw [h, lk_half hx])
        simp [has, owner, h5, he])).2
    exact ⟨hL, hN.locks, knows_next hK hg.last hlk hN (hR _ _ _ hL).2.2 (by intro l h; cases h)⟩
  -- failing to take it
  have hbump : ∀ {l v m}, exchange s.mem t l ts = some (v, m) → v ≠ 0 → Next isL s.mem (has s.hist) m (has s.hist) ∧ m.last = s.mem.last := by
    intro l v m h1 h2
    obtain ⟨g, hg⟩ := rmw_spec h1
    exact ⟨Next.bump hlk hg (isL_lk l) h2 (by simp) (fun _ _ _ => Iff.rfl), hg.last⟩
  simp only [step, hub] at hs
  simp only [Bool.false_eq_true, if_false] at hs
  split at hs
  · rename_i hrun
    split at hs
    · cases hs
    · -- lock
      rename_i l hreq
      cases hs
      exact ⟨hleg, rfl, hdat, hlk, hkn, hrd, hpc'' (l := l) (fun u hu => by simp [upd_other _ _ hu]) (by simp [upd_same]) hreq⟩
    · -- tryLock
      rename_i l hreq
      split at hs
      · cases hs
      · rename_i v m hx
        split at hs
        · rename_i hv
          cases hs
          rw [hv] at hx
          obtain ⟨h1, h2, h3⟩ := htake hx (.inr hreq)
          exact ⟨h1, rfl, fun a => by simp [value, hdat], h2, h3.1, h3.2, hpc' (fun _ _ => rfl) hrun⟩
        · rename_i hv
          cases hs
          obtain ⟨h1, h2⟩ := hbump hx hv
          have hL : Legal prog ((t, .failed l) :: s.hist) := ⟨hreq, hleg⟩
          have hN : Next isL s.mem (has s.hist) m (has ((t, .failed l) :: s.hist)) := ⟨h1.locks, h1.kn⟩
          have h3 := knows_next hK h2 hlk hN (hR _ _ _ hL).2.2 (by intro l h; cases h)
          exact ⟨hL, rfl, fun a => by simp [value, hdat], hN.locks, h3.1, h3.2, hpc' (fun _ _ => rfl) hrun⟩
    · -- unlock
      rename_i l hreq
      split at hs
      · cases hs
      · rename_i m hx
        cases hs
        have hst := store_spec hx
        have hown : owner s.hist l = some t := hp _ _ _ hleg hreq
        have hL : Legal prog ((t, .released l) :: s.hist) := ⟨⟨hreq, hown⟩, hleg⟩
        have hN : Next isL s.mem (has s.hist) m (has ((t, .released l) :: s.hist)) :=
          Next.put hlk hst (isL_lk l) (has_lk.2 hown) (by
            intro x u hx
            by_cases he : x = lk l
            · subst he; simp [has_lk, owner]
            · have h5 : l ≠ x / 2 := fun h => he (by rw [h, lk_half hx])
              simp [has, owner, h5, he])
        have h3 := knows_next hK hst.last hlk hN (hR _ _ _ hL).2.2 (by intro k h; cases h; exact hown)
        exact ⟨hL, rfl, fun a => by simp [value, hdat], hN.locks, h3.1, h3.2, hpc' (fun _ _ => rfl) hrun⟩
    · -- read
      rename_i a hreq
      cases hs
      have hL : Legal prog ((t, .got a (s.data a)) :: s.hist) := ⟨⟨hreq, (hdat a).symm⟩, hleg⟩
      obtain ⟨hr, -, hm⟩ := hR _ _ _ hL
      have hT := touch_spec (m := s.mem) (w := t) (x := rd a t) (b := (touch s.mem t (rd a t)).1) (m' := (touch s.mem t (rd a t)).2) rfl
      obtain ⟨i, hr⟩ := hr a _ rfl
      have hka : s.mem.last (wr a) ≤ s.mem.cur t (wr a) := by have := hkn a i; rw [hr] at this; exact this
      have hN : Next isL s.mem (has s.hist) (touch s.mem t (rd a t)).2 (has ((t, .got a (s.data a)) :: s.hist)) :=
        Next.quiet hlk (fun l _ => by rw [hT.msg]) (cur_mono hT.others hT.mono) (fun _ _ _ => Iff.rfl)
      have hm' : ∀ b j, right ((t, .got a (s.data a)) :: s.hist) b j = right s.hist b j := by
        intro b j
        rcases hm b j with h | ⟨l, h, _⟩ | ⟨l, h, _⟩
        · exact h
        · cases h
        · cases h
      refine ⟨hL, ?_, fun b => by simp [value, hdat], hN.locks, fun b j => ?_, fun b u => ?_, hpc' (fun _ _ => rfl) hrun⟩
      · show ignores _ _ _ = false
        simp only [ignores, decide_eq_false_iff_not]; omega
      · show Kn (touch s.mem t (rd a t)).2 _ (who (right ((t, .got a (s.data a)) :: s.hist) b j)) _ ((touch s.mem t (rd a t)).2.last _)
        rw [hm', hT.last, upd_other _ _ (wr_rd b a t)]
        exact hN.kn _ _ _ (who_isL _) (hkn b j)
      · show ∃ j, Kn (touch s.mem t (rd a t)).2 _ (who (right ((t, .got a (s.data a)) :: s.hist) b j)) _ ((touch s.mem t (rd a t)).2.last _)
        rw [hT.last]
        by_cases he : rd b u = rd a t
        · obtain ⟨rfl, rfl⟩ := rd_inj he
          refine ⟨i, ?_⟩
          rw [hm', hr, upd_same]; exact hT.new
        · obtain ⟨j, hj⟩ := hrd b u
          refine ⟨j, ?_⟩
          rw [hm', upd_other _ _ he]
          exact hN.kn _ _ _ (who_isL _) hj
    · -- write
      rename_i a v hreq
      cases hs
      have hL : Legal prog ((t, .put a v) :: s.hist) := ⟨hreq, hleg⟩
      obtain ⟨-, hr, hm⟩ := hR _ _ _ hL
      have hT := touch_spec (m := s.mem) (w := t) (x := wr a) (b := (touch s.mem t (wr a)).1) (m' := (touch s.mem t (wr a)).2) rfl
      have hr := hr a _ rfl
      have hka : s.mem.last (wr a) ≤ s.mem.cur t (wr a) := by have := hkn a 0; rw [hr] at this; exact this
      have hkr : ∀ u, s.mem.last (rd a u) ≤ s.mem.cur t (rd a u) := by
        intro u
        obtain ⟨i, hi⟩ := hrd a u
        rw [hr] at hi; exact hi
      have hN : Next isL s.mem (has s.hist) (touch s.mem t (wr a)).2 (has ((t, .put a v) :: s.hist)) :=
        Next.quiet hlk (fun l _ => by rw [hT.msg]) (cur_mono hT.others hT.mono) (fun _ _ _ => Iff.rfl)
      have hm' : ∀ b j, right ((t, .put a v) :: s.hist) b j = right s.hist b j := by
        intro b j
        rcases hm b j with h | ⟨l, h, _⟩ | ⟨l, h, _⟩
        · exact h
        · cases h
        · cases h
      refine ⟨hL, ?_, fun b => ?_, hN.locks, fun b j => ?_, fun b u => ?_, hpc' (fun _ _ => rfl) hrun⟩
      · show writeRace _ _ _ _ = false
        have h1 : ignores s.mem t (wr a) = false := by simp only [ignores, decide_eq_false_iff_not]; omega
        have h2 : ∀ u, ignores s.mem t (rd a u) = false := fun u => by
          have := hkr u
          simp only [ignores, decide_eq_false_iff_not]; omega
        simp only [writeRace, h1, h2, Bool.false_or, Bool.and_false]
        rw [List.any_eq_false]
        intro e _
        split <;> simp
      · simp only [value, upd_apply]
        by_cases he : a = b
        · subst he; simp
        · have : ¬ b = a := fun h => he h.symm
          simp [he, this, hdat]
      · show Kn (touch s.mem t (wr a)).2 _ (who (right ((t, .put a v) :: s.hist) b j)) _ ((touch s.mem t (wr a)).2.last _)
        rw [hm', hT.last]
        by_cases he : wr b = wr a
        · have := wr_inj he
          subst this
          rw [hr, upd_same]; exact hT.new
        · rw [upd_other _ _ he]; exact hN.kn _ _ _ (who_isL _) (hkn b j)
      · show ∃ j, Kn (touch s.mem t (wr a)).2 _ (who (right ((t, .put a v) :: s.hist) b j)) _ ((touch s.mem t (wr a)).2.last _)
        obtain ⟨j, hj⟩ := hrd b u
        refine ⟨j, ?_⟩
        rw [hm', hT.last, upd_other _ _ (fun h => wr_rd a b u h.symm)]
        exact hN.kn _ _ _ (who_isL _) hj
  · -- the loop of `lock`
    rename_i l hpcl
    split at hs
    · cases hs
    · rename_i v m hx
      cases hs
      obtain ⟨g, hg⟩ := load_spec hx
      have hN : Next isL s.mem (has s.hist) m (has s.hist) :=
        Next.quiet hlk (fun l _ => by rw [hg.msg]) (cur_mono hg.others hg.mono) (fun _ _ _ => Iff.rfl)
      have h3 := knows_same hK hg.last hN
      refine ⟨hleg, rfl, hdat, hN.locks, h3.1, h3.2, hpc'' (l := l) (fun u hu => by simp [upd_other _ _ hu]) ?_ (hpc t l (.inl hpcl))⟩
      · show upd s.pc t _ t = _ ∨ upd s.pc t _ t = _
        rw [upd_same]; split <;> simp
  · -- the exchange of `lock`
    rename_i l hpcl
    split at hs
    · cases hs
    · rename_i v m hx
      split at hs
      · rename_i hv
        cases hs
        rw [hv] at hx
        obtain ⟨h1, h2, h3⟩ := htake hx (.inl (hpc t l (.inr hpcl)))
        exact ⟨h1, rfl, fun a => by simp [value, hdat], h2, h3.1, h3.2, hpc' (fun u hu => by simp [upd_other _ _ hu]) (by simp [upd_same])⟩
      · rename_i hv
        cases hs
        obtain ⟨h1, h2⟩ := hbump hx hv
        have h3 := knows_same hK h2 h1
        exact ⟨hleg, rfl, hdat, h1.locks, h3.1, h3.2, hpc'' (l := l) (fun u hu => by simp [upd_other _ _ hu]) (by simp [upd_same]) (hpc t l (.inr hpcl))⟩

end Verif.WeakDrf
