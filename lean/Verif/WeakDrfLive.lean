import Verif.WeakDrfInv

/-!
# Programs with locks on weak memory: every sequentially consistent history can happen
-/

namespace Verif.WeakDrf

open Verif.Weak
open Verif.Rtm (Tid Lock Addr Req Done Hist Prog mine owner value Legal Allowed holding owner_iff)

/-- The last message of every lock is at `T`, and nobody knows of a later one. -/
structure Top (s : State) (T : Lock → Nat) : Prop where
  run : ∀ t, s.pc t = .run
  rel : ∀ t x, s.mem.rel t x = 0
  cur : ∀ t l, s.mem.cur t (lk l) ≤ T l
  view : ∀ x u g l, s.mem.msg x u = some g → g.view (lk l) ≤ T l
  top : ∀ l, ∃ g, s.mem.msg (lk l) (T l) = some g ∧ (g.val = 0 ↔ owner s.hist l = none)
  none : ∀ l u, T l < u → s.mem.msg (lk l) u = none

theorem upd_upd {α : Type} (f : Nat → α) (i : Nat) (v w : α) : upd (upd f i v) i w = upd f i w := by
  funext j; simp only [upd_apply]; split <;> rfl

theorem top_init : Top init (fun _ => 0) where
  run := fun _ => rfl
  rel := fun _ _ => rfl
  cur := fun _ _ => Nat.le_refl _
  view := by
    intro x u g l h
    simp only [init, start] at h
    split at h
    · cases h; exact Nat.le_refl _
    · cases h
  top := fun l => ⟨⟨0, fun _ => 0⟩, by simp [init, start], by simp [init, owner]⟩
  none := by
    intro l u h
    have : u ≠ 0 := by omega
    simp [init, start, this]

variable {prog : Prog} {s : State} {T : Lock → Nat} {t : Tid} {l : Lock}

/-- A relaxed load of the last message. -/
theorem top_load (hT : Top s T) {g : Msg} (hg : s.mem.msg (lk l) (T l) = some g) :
    ∃ m, load s.mem t (lk l) (T l) false = some (g.val, m) ∧ Top { s with mem := m } T := by
  refine ⟨_, by unfold load; rw [if_pos (hT.cur t l), hg], ?_⟩
  refine ⟨hT.run, hT.rel, ?_, hT.view, hT.top, hT.none⟩
  intro u k
  simp only [upd_apply]
  split
  · refine join_le (join_le (hT.cur t k) ?_) (Nat.zero_le _)
    rw [single_apply]; split
    · rename_i h; rw [lk_inj h]; exact Nat.le_refl _
    · exact Nat.zero_le _
  · exact hT.cur u k

/-- An exchange that reads the last message. -/
theorem top_exchange (hT : Top s T) {g : Msg} (hg : s.mem.msg (lk l) (T l) = some g) {d : Done}
    (hd : (d = .acquired l ∧ g.val = 0) ∨ (d = .failed l ∧ g.val ≠ 0)) :
    ∃ m T', exchange s.mem t l (T l) = some (g.val, m) ∧ Top { s with mem := m, hist := (t, d) :: s.hist } T' := by
  refine ⟨_, upd T l (T l + 1), by
    unfold exchange rmw
    rw [if_pos ⟨hT.cur t l, by rw [hT.none l _ (by omega)]; rfl⟩, hg], ?_⟩
  have hup : ∀ k, T k ≤ upd T l (T l + 1) k := by intro k; rw [upd_apply]; split <;> (try subst_vars) <;> omega
  have hs1 : ∀ k, single (lk l) (T l) (lk k) ≤ upd T l (T l + 1) k := by
    intro k; rw [single_apply]; split
    · rename_i h; rw [lk_inj h]; exact hup l
    · exact Nat.zero_le _
  have hs2 : ∀ k, single (lk l) (T l + 1) (lk k) ≤ upd T l (T l + 1) k := by
    intro k; rw [single_apply]; split
    · rename_i h; rw [lk_inj h, upd_same]; exact Nat.le_refl _
    · exact Nat.zero_le _
  refine ⟨hT.run, hT.rel, ?_, ?_, ?_, ?_⟩
  · intro u k
    by_cases hu : u = t
    · subst hu
      simp only [upd_same]
      exact join_le (join_le (join_le (Nat.le_trans (hT.cur u k) (hup k)) (hs1 k)) (Nat.le_trans (hT.view _ _ g k hg) (hup k))) (hs2 k)
    · simp only [upd_other _ _ hu]; exact Nat.le_trans (hT.cur u k) (hup k)
  · intro x u g' k h
    by_cases hx : x = lk l
    · subst hx
      by_cases hu : u = T l + 1
      · subst hu
        simp only [upd_same] at h
        cases h
        refine join_le (Nat.le_trans (hT.view _ _ g k hg) (hup k)) (join_le ?_ (hs2 k))
        simp only [Bool.false_eq_true, if_false]
        rw [hT.rel]; exact Nat.zero_le _
      · simp only [upd_same, upd_other _ _ hu] at h
        exact Nat.le_trans (hT.view _ _ g' k h) (hup k)
    · simp only [upd_other _ _ hx] at h
      exact Nat.le_trans (hT.view _ _ g' k h) (hup k)
  · intro k
    by_cases hk : k = l
    · subst hk
      refine ⟨_, by simp only [upd_same]; rfl, ?_⟩
      rcases hd with ⟨rfl, hv⟩ | ⟨rfl, hv⟩
      · simp [owner]
      · obtain ⟨g', h1, h2⟩ := hT.top k
        rw [hg] at h1; cases h1
        simp only [owner]
        rw [← h2]; simp [hv]
    · have hk' : lk k ≠ lk l := fun h => hk (lk_inj h)
      have hk'' : ¬ l = k := fun h => hk h.symm
      obtain ⟨g', h1, h2⟩ := hT.top k
      refine ⟨g', by simp only [upd_other _ _ hk, upd_other _ _ hk']; exact h1, ?_⟩
      rcases hd with ⟨rfl, _⟩ | ⟨rfl, _⟩ <;> simp only [owner, hk'', if_false] <;> exact h2
  · intro k u h
    by_cases hk : k = l
    · subst hk
      rw [upd_same] at h
      have : ¬ u = T k + 1 := by omega
      simp only [upd_same, upd_apply, this, if_false]
      exact hT.none k u (by omega)
    · have hk' : lk k ≠ lk l := fun h => hk (lk_inj h)
      rw [upd_other _ _ hk] at h
      simp only [upd_other _ _ hk']
      exact hT.none k u h

/-- A release store after the last message. -/
theorem top_store (hT : Top s T) : ∃ m T', store s.mem t (lk l) (T l + 1) 0 true = some m ∧
    Top { s with mem := m, hist := (t, .released l) :: s.hist } T' := by
  refine ⟨_, upd T l (T l + 1), by
    unfold store
    rw [if_pos ⟨Nat.lt_succ_of_le (hT.cur t l), by rw [hT.none l _ (by omega)]; rfl⟩], ?_⟩
  have hup : ∀ k, T k ≤ upd T l (T l + 1) k := by intro k; rw [upd_apply]; split <;> (try subst_vars) <;> omega
  have hs2 : ∀ k, single (lk l) (T l + 1) (lk k) ≤ upd T l (T l + 1) k := by
    intro k; rw [single_apply]; split
    · rename_i h; rw [lk_inj h, upd_same]; exact Nat.le_refl _
    · exact Nat.zero_le _
  have hc : ∀ k, join (s.mem.cur t) (single (lk l) (T l + 1)) (lk k) ≤ upd T l (T l + 1) k :=
    fun k => join_le (Nat.le_trans (hT.cur t k) (hup k)) (hs2 k)
  refine ⟨hT.run, hT.rel, ?_, ?_, ?_, ?_⟩
  · intro u k
    by_cases hu : u = t
    · subst hu; simp only [upd_same]; exact hc k
    · simp only [upd_other _ _ hu]; exact Nat.le_trans (hT.cur u k) (hup k)
  · intro x u g' k h
    by_cases hx : x = lk l
    · subst hx
      by_cases hu : u = T l + 1
      · subst hu
        simp only [upd_same] at h
        cases h
        exact join_le (by simp only [if_true]; exact hc k) (hs2 k)
      · simp only [upd_same, upd_other _ _ hu] at h
        exact Nat.le_trans (hT.view _ _ g' k h) (hup k)
    · simp only [upd_other _ _ hx] at h
      exact Nat.le_trans (hT.view _ _ g' k h) (hup k)
  · intro k
    by_cases hk : k = l
    · subst hk
      exact ⟨_, by simp only [upd_same]; rfl, by simp [owner]⟩
    · have hk' : lk k ≠ lk l := fun h => hk (lk_inj h)
      have hk'' : ¬ l = k := fun h => hk h.symm
      obtain ⟨g', h1, h2⟩ := hT.top k
      refine ⟨g', by simp only [upd_other _ _ hk, upd_other _ _ hk']; exact h1, ?_⟩
      simp only [owner, hk'', if_false]; exact h2
  · intro k u h
    by_cases hk : k = l
    · subst hk
      rw [upd_same] at h
      have : ¬ u = T k + 1 := by omega
      simp only [upd_same, upd_apply, this, if_false]
      exact hT.none k u (by omega)
    · have hk' : lk k ≠ lk l := fun h => hk (lk_inj h)
      rw [upd_other _ _ hk] at h
      simp only [upd_other _ _ hk']
      exact hT.none k u h

theorem top_touch (hT : Top s T) (x : Nat) {a : Addr} {d : Done} (hd : (∃ v, d = .got a v) ∨ ∃ v, d = .put a v) (ub : Bool) (data : Addr → Nat) :
    Top { s with mem := (touch s.mem t (2 * x + 1)).2, ub := ub, data := data, hist := (t, d) :: s.hist } T := by
  refine ⟨hT.run, hT.rel, ?_, hT.view, ?_, hT.none⟩
  · intro u k
    by_cases hu : u = t
    · subst hu
      simp only [touch, upd_same]
      refine join_le (hT.cur u k) ?_
      rw [single_apply, if_neg (by unfold lk; exact fun h => by have : (2 * (k : Nat)) % 2 = (2 * x + 1) % 2 := congrArg (· % 2) h; omega)]
      exact Nat.zero_le _
    · simp only [touch, upd_other _ _ hu]; exact hT.cur u k
  · intro k
    obtain ⟨g, h1, h2⟩ := hT.top k
    refine ⟨g, h1, ?_⟩
    rcases hd with ⟨v, rfl⟩ | ⟨v, rfl⟩ <;> exact h2

theorem realise {right : Hist → Addr → Nat → Right} (hp : Unlocks prog) (hR : Rights prog right) :
    ∀ {h : Hist}, Legal prog h → Honest h → ∃ s tr T, Reach (step prog) init s tr ∧ s.hist = h ∧ Top s T ∧ Inv prog right s := by
  intro h
  induction h with
  | nil => intro _ _; exact ⟨init, [], fun _ => 0, .refl, rfl, top_init, inv_init⟩
  | cons e h ih =>
    intro hl ho
    obtain ⟨t, d⟩ := e
    have ho' : Honest h := by cases d <;> simp only [Honest] at ho <;> first | exact ho | exact ho.2
    obtain ⟨s, tr, T, hr, rfl, hT, hi⟩ := ih hl.2 ho'
    have hrun := hT.run t
    have hub := hi.ub
    cases d with
    | acquired l =>
      obtain ⟨g, hg, hgv⟩ := hT.top l
      have hv : g.val = 0 := hgv.2 hl.1.2
      rcases hl.1.1 with hq | hq
      · -- lock: into the loop, the load, the exchange
        have e1 : step prog s (t, 0) = some ({ s with pc := upd s.pc t (.test l) }, []) := by simp [step, hub, hrun, hq]
        obtain ⟨m, hm, hTm⟩ := top_load (t := t) hT hg
        have e2 : step prog { s with pc := upd s.pc t (.test l) } (t, T l) = some ({ s with mem := m, pc := upd s.pc t (.xchg l) }, []) := by
          simp [step, hub, upd_same, hm, hv, upd_upd]
        obtain ⟨g', hg', hgv'⟩ := hTm.top l
        have hv' : g'.val = 0 := hgv'.2 hl.1.2
        obtain ⟨m2, T2, hm2, hT2⟩ := top_exchange (t := t) (d := .acquired l) hTm hg' (.inl ⟨rfl, hv'⟩)
        have e3 : step prog { s with mem := m, pc := upd s.pc t (.xchg l) } (t, T l) =
            some ({ s with mem := m2, pc := upd s.pc t .run, hist := (t, .acquired l) :: s.hist }, []) := by
          simp only [step, hub, upd_same]
          simp only at hm2
          rw [hm2]
          simp [hv', upd_upd]
        have i1 := inv_step hp hR hi e1
        have i2 := inv_step hp hR i1 e2
        have i3 := inv_step hp hR i2 e3
        refine ⟨_, _, T2, ((hr.tail _ e1).tail _ e2).tail _ e3, rfl, ?_, i3⟩
        have : upd s.pc t .run = s.pc := by funext u; rw [upd_apply]; split <;> (try subst_vars) <;> simp [hT.run]
        exact ⟨fun u => by simp only [this]; exact hT.run u, hT2.rel, hT2.cur, hT2.view, hT2.top, hT2.none⟩
      · obtain ⟨m2, T2, hm2, hT2⟩ := top_exchange (t := t) (d := .acquired l) hT hg (.inl ⟨rfl, hv⟩)
        have e1 : step prog s (t, T l) = some ({ s with mem := m2, hist := (t, .acquired l) :: s.hist }, []) := by
          simp [step, hub, hrun, hq, hm2, hv]
        exact ⟨_, _, T2, hr.tail _ e1, rfl, hT2, inv_step hp hR hi e1⟩
    | failed l =>
      obtain ⟨g, hg, hgv⟩ := hT.top l
      have hv : g.val ≠ 0 := fun h => ho.1 (hgv.1 h)
      obtain ⟨m2, T2, hm2, hT2⟩ := top_exchange (t := t) (d := .failed l) hT hg (.inr ⟨rfl, hv⟩)
      have e1 : step prog s (t, T l) = some ({ s with mem := m2, hist := (t, .failed l) :: s.hist }, []) := by
        have hq : prog t (mine s.hist t) = some (.tryLock l) := hl.1
        simp [step, hub, hrun, hq, hm2, hv]
      exact ⟨_, _, T2, hr.tail _ e1, rfl, hT2, inv_step hp hR hi e1⟩
    | released l =>
      obtain ⟨m2, T2, hm2, hT2⟩ := top_store (t := t) (l := l) hT
      have e1 : step prog s (t, T l + 1) = some ({ s with mem := m2, hist := (t, .released l) :: s.hist }, []) := by
        have hq : prog t (mine s.hist t) = some (.unlock l) := hl.1.1
        simp [step, hub, hrun, hq, hm2]
      exact ⟨_, _, T2, hr.tail _ e1, rfl, hT2, inv_step hp hR hi e1⟩
    | got a v =>
      have hv : s.data a = v := (hi.data a).trans hl.1.2
      have e1 : step prog s (t, 0) = some ({ s with mem := (touch s.mem t (rd a t)).2, ub := readRace s.mem t a, hist := (t, .got a v) :: s.hist }, []) := by
        have hq : prog t (mine s.hist t) = some (.read a) := hl.1.1
        simp [step, hub, hrun, hq, hv]
      exact ⟨_, _, T, hr.tail _ e1, rfl, top_touch hT _ (.inl ⟨v, rfl⟩) _ _, inv_step hp hR hi e1⟩
    | put a v =>
      have e1 : step prog s (t, 0) = some ({ s with mem := (touch s.mem t (wr a)).2, ub := writeRace s.mem s.hist t a, data := upd s.data a v, hist := (t, .put a v) :: s.hist }, []) := by
        have hq : prog t (mine s.hist t) = some (.write a v) := hl.1
        simp [step, hub, hrun, hq]
      exact ⟨_, _, T, hr.tail _ e1, rfl, top_touch hT _ (.inr ⟨v, rfl⟩) _ _, inv_step hp hR hi e1⟩

end Verif.WeakDrf
