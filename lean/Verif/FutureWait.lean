import Verif.FutureCore

/-!
# Futures: waiters and notification
-/

namespace Verif.Fut

variable {V E : Type}

def regOf : Pc V E → Option (WReg Sid)
  | .waiting op _ i ep => some ⟨i, ep, op.dl, false⟩
  | .unlink op _ i ep => some ⟨i, ep, op.dl, true⟩
  | _ => none

/-- On the way into, or asleep in, the wait queue of result `i`. -/
def blockedOn (p : Pc V E) (ready : Bool) (i : Sid) : Prop :=
  (∃ op u, p = .enq op u i) ∨ ((∃ op u ep, p = .waiting op u i ep) ∧ ready = false)

def notifying (p : Pc V E) (i : Sid) : Prop := ∃ op u, p = .notify op u i

structure WI (s : State V E) : Prop where
  w  : WInv s.c s.q s.now (fun f => regOf (s.pc f))
  sp : ∀ i f, s.splk i = some f ↔ ∃ op u, s.pc f = .enq op u i
  pend : ∀ f i, blockedOn (s.pc f) (s.c.ready f) i → s.res i ≠ none → ∃ g, notifying (s.pc g) i

theorem wi_init : WI (init : State V E) := by
  refine ⟨WInv.init.congr (fun _ => rfl) (fun _ => rfl), ?_, ?_⟩ <;> simp [init, blockedOn]

/-- The program counter of one fiber changes between positions outside the wait queue. -/
theorem WI.go {s s' : State V E} (h : WI s) {f : Fid} {p : Pc V E} (hc : s'.c = s.c) (hq : s'.q = s.q) (hn : s'.now = s.now)
    (hs : s'.splk = s.splk) (hp : s'.pc = upd s.pc f p) (hr0 : regOf (s.pc f) = none) (hr1 : regOf p = none)
    (he0 : ∀ op u i, s.pc f ≠ .enq op u i) (he1 : ∀ op u i, p ≠ .enq op u i)
    (hno : ∀ i, notifying (s.pc f) i → notifying p i)
    (hres : ∀ i, s'.res i ≠ none → s.res i ≠ none ∨ notifying p i) : WI s' := by
  refine ⟨?_, ?_, ?_⟩
  · rw [hc, hq, hn]
    refine h.w.congr (fun _ => rfl) ?_
    intro g; rw [hp, upd_apply]; split
    · subst_vars; rw [hr0, hr1]
    · rfl
  · intro i g; rw [hs, hp, upd_apply, h.sp]; split
    · subst_vars; constructor
      · rintro ⟨op, u, e⟩; exact absurd e (he0 _ _ _)
      · rintro ⟨op, u, e⟩; exact absurd e (he1 _ _ _)
    · rfl
  · intro g i hb hri
    have hgf : g ≠ f := by
      rintro rfl
      rw [hp, upd_same] at hb
      rcases hb with ⟨op, u, e⟩ | ⟨⟨op, u, ep, e⟩, -⟩
      · exact he1 _ _ _ e
      · rw [e] at hr1; simp [regOf] at hr1
    rw [hp, upd_other _ _ hgf, hc] at hb
    rcases hres i hri with h1 | h1
    · obtain ⟨k, hk⟩ := h.pend g i hb h1
      by_cases hkf : k = f
      · subst hkf; exact ⟨k, by rw [hp, upd_same]; exact hno i hk⟩
      · exact ⟨k, by rw [hp, upd_other _ _ hkf]; exact hk⟩
    · exact ⟨f, by rw [hp, upd_same]; exact h1⟩

/-- Nothing that concerns waiting changes. -/
theorem WI.same {s s' : State V E} (h : WI s) (hc : s'.c = s.c) (hq : s'.q = s.q) (hn : s'.now = s.now)
    (hs : s'.splk = s.splk) (hp : s'.pc = s.pc) (hr : s'.res = s.res) : WI s' := by
  refine ⟨?_, ?_, ?_⟩
  · rw [hc, hq, hn]; exact h.w.congr (fun _ => rfl) (fun g => by rw [hp])
  · rw [hs, hp]; exact h.sp
  · rw [hp, hc, hr]; exact h.pend

theorem ret_eq {s s' : State V E} {f : Fid} {op : Op V E} {i : Option Sid} {r : Res V E} {q o : List (Obs V E)}
    (hs : ret s f op i r q = some (s', o)) : s' = s := by
  simp only [ret, Option.some.injEq, Prod.mk.injEq] at hs; exact hs.1.symm

/-- What a call does to waiting: at most it moves its own fiber, and not into the queue. -/
theorem call_wait {s s' : State V E} {lax : Bool} {f : Fid} {op : Op V E} {o : List (Obs V E)}
    (hs : call lax s f op = some (s', o)) :
    s'.c = s.c ∧ s'.q = s.q ∧ s'.now = s.now ∧ s'.splk = s.splk ∧ s'.res = s.res ∧
      (s'.pc = s.pc ∨ ∃ p, s'.pc = upd s.pc f p ∧ ((∃ op h i out a, p = .set op h i out a) ∨ (∃ op i, p = .owner op i) ∨
        ∃ op u i, p = .enter op u i)) := by
  have hret : ∀ {s2 : State V E} {op : Op V E} {i : Option Sid} {r : Res V E} {q : List (Obs V E)},
      ret s2 f op i r q = some (s', o) → s2.c = s.c → s2.q = s.q → s2.now = s.now → s2.splk = s.splk →
      s2.res = s.res → s2.pc = s.pc →
      s'.c = s.c ∧ s'.q = s.q ∧ s'.now = s.now ∧ s'.splk = s.splk ∧ s'.res = s.res ∧
      (s'.pc = s.pc ∨ ∃ p, s'.pc = upd s.pc f p ∧ ((∃ op h i out a, p = .set op h i out a) ∨ (∃ op i, p = .owner op i) ∨
        ∃ op u i, p = .enter op u i)) := by
    intro s2 op i r q h1 e1 e2 e3 e4 e5 e6
    cases ret_eq h1
    exact ⟨e1, e2, e3, e4, e5, .inl e6⟩
  have hst : ∀ {h : Hid} {p : Pc V E}, start s f h p = some (s', o) →
      ((∃ op h i out a, p = .set op h i out a) ∨ (∃ op i, p = .owner op i) ∨ ∃ op u i, p = .enter op u i) →
      s'.c = s.c ∧ s'.q = s.q ∧ s'.now = s.now ∧ s'.splk = s.splk ∧ s'.res = s.res ∧
      (s'.pc = s.pc ∨ ∃ p, s'.pc = upd s.pc f p ∧ ((∃ op h i out a, p = .set op h i out a) ∨ (∃ op i, p = .owner op i) ∨
        ∃ op u i, p = .enter op u i)) := by
    intro h p h1 h2
    simp only [start, Option.some.injEq, Prod.mk.injEq] at h1
    obtain ⟨rfl, rfl⟩ := h1
    exact ⟨rfl, rfl, rfl, rfl, rfl, .inr ⟨p, rfl, h2⟩⟩
  have hdis : ∀ {s2 : State V E} {op : Op V E} {i : Option Sid} {y : Handle} {o : List (Obs V E)},
      discard s2 f op i y = some (s', o) → s2.c = s.c → s2.q = s.q → s2.now = s.now → s2.splk = s.splk →
      s2.res = s.res → s2.pc = s.pc →
      s'.c = s.c ∧ s'.q = s.q ∧ s'.now = s.now ∧ s'.splk = s.splk ∧ s'.res = s.res ∧
      (s'.pc = s.pc ∨ ∃ p, s'.pc = upd s.pc f p ∧ ((∃ op h i out a, p = .set op h i out a) ∨ (∃ op i, p = .owner op i) ∨
        ∃ op u i, p = .enter op u i)) := by
    intro s2 op i y o h1 e1 e2 e3 e4 e5 e6
    simp only [discard] at h1
    split at h1
    · cases ret_eq h1; exact ⟨e1, e2, e3, e4, e5, .inl e6⟩
    · split at h1
      · simp only [Option.some.injEq, Prod.mk.injEq] at h1
        obtain ⟨rfl, rfl⟩ := h1
        exact ⟨e1, e2, e3, e4, e5, .inr ⟨_, by rw [← e6], .inr (.inl ⟨_, _, rfl⟩)⟩⟩
      · cases ret_eq h1; exact ⟨by simp [e1], by simp [e2], by simp [e3], by simp [e4], by simp [e5], .inl (by simp [e6])⟩
  simp only [call] at hs
  split at hs
  · split at hs
    · exact hret hs rfl rfl rfl rfl rfl rfl
    · exact hret hs rfl rfl rfl rfl rfl rfl
    · split at hs
      · simp at hs
      · exact hret hs rfl rfl rfl rfl rfl rfl
    · simp at hs
  · unfold callOn at hs
    cases op with
    | mkPromise | mkTask | mkEmpty => simp at hs
    | copyAssign a h' =>
      simp only at hs
      split at hs
      · exact hret hs rfl rfl rfl rfl rfl rfl
      · split at hs
        · simp at hs
        · split at hs <;> try (simp only [reduceCtorEq] at hs; done)
          split at hs
          · exact hdis hs rfl rfl rfl rfl rfl rfl
          · split at hs
            · simp at hs
            · rename_i hd
              simp only [Option.some.injEq, Prod.mk.injEq] at hs
              obtain ⟨rfl, rfl⟩ := hs
              exact hdis hd (by simp) (by simp) (by simp) (by simp) (by simp) (by simp)
    | get a =>
      simp only at hs
      repeat' split at hs
      all_goals first
        | (simp only [reduceCtorEq] at hs; done)
        | exact hret hs rfl rfl rfl rfl rfl rfl
        | exact hst hs (.inr (.inr ⟨_, _, _, rfl⟩))
        | skip
      simp only [Option.some.injEq, Prod.mk.injEq] at hs
      obtain ⟨rfl, rfl⟩ := hs
      exact ⟨rfl, rfl, rfl, rfl, rfl, .inr ⟨_, rfl, .inr (.inr ⟨_, _, _, rfl⟩)⟩⟩
    | _ =>
      simp only at hs
      repeat' split at hs
      all_goals first
        | (simp only [reduceCtorEq] at hs; done)
        | exact hret hs rfl rfl rfl rfl rfl rfl
        | exact hret hs (by simp [create]) (by simp [create]) (by simp [create]) (by simp [create]) (by simp [create]) (by simp [create])
        | exact hdis hs rfl rfl rfl rfl rfl rfl
        | exact hst hs (.inl ⟨_, _, _, _, _, rfl⟩)
        | exact hst hs (.inr (.inr ⟨_, _, _, rfl⟩))

/-- What the end of a call does to waiting. -/
theorem finish_wait {s s' : State V E} {f : Fid} {op : Op V E} {u : Use} {i : Sid} {r : Res V E} {q o : List (Obs V E)}
    (hs : finish s f op u i r q = some (s', o)) :
    s'.c = s.c ∧ s'.q = s.q ∧ s'.now = s.now ∧ s'.splk = s.splk ∧ s'.res = s.res ∧ s'.pc = upd s.pc f .idle := by
  cases u <;> simp only [finish, Option.some.injEq, Prod.mk.injEq] at hs <;> obtain ⟨rfl, rfl⟩ := hs <;> simp

theorem wi_run {s s' : State V E} {f : Fid} {o : List (Obs V E)} (hc : Core s none) (h : WI s)
    (hs : run s f = some (s', o)) : WI s' := by
  have hend : ∀ {op : Op V E} {u : Use} {i : Sid} {r : Res V E}, finish s f op u i r = some (s', o) →
      regOf (s.pc f) = none → (∀ op u i, s.pc f ≠ .enq op u i) → (∀ i, ¬ notifying (s.pc f) i) → WI s' := by
    intro op u i r h1 h2 h3 h4
    obtain ⟨e1, e2, e3, e4, e5, e6⟩ := finish_wait h1
    exact h.go e1 e2 e3 e4 e6 h2 rfl h3 (by simp) (fun j hj => absurd hj (h4 j)) (fun j hj => .inl (by rwa [e5] at hj))
  simp only [run] at hs
  split at hs
  · simp at hs
  · rename_i i0 hsid
    rw [if_pos (hc.sid_live hsid)] at hs
    unfold runLive at hs
    split at hs
    · simp at hs
    · rename_i op k i out again hp
      split at hs
      · split at hs
        · simp only [Option.some.injEq, Prod.mk.injEq] at hs
          obtain ⟨rfl, rfl⟩ := hs
          exact h.go (f := f) rfl rfl rfl rfl rfl (by simp [hp, regOf]) rfl (by simp [hp]) (by simp) (by simp [hp, notifying]) (fun _ => .inl)
        · exact hend hs (by simp [hp, regOf]) (by simp [hp]) (by simp [hp, notifying])
      · simp only [Option.some.injEq, Prod.mk.injEq] at hs
        obtain ⟨rfl, rfl⟩ := hs
        refine h.go (f := f) rfl rfl rfl rfl rfl (by simp [hp, regOf]) rfl (by simp [hp]) (by simp) (by simp [hp, notifying]) ?_
        intro j hj; simp only [upd_apply] at hj; split at hj
        · subst_vars; exact .inr ⟨_, _, rfl⟩
        · exact .inl hj
    · rename_i op i hp
      split at hs
      · exact hend hs (by simp [hp, regOf]) (by simp [hp]) (by simp [hp, notifying])
      · simp only [Option.some.injEq, Prod.mk.injEq] at hs
        obtain ⟨rfl, rfl⟩ := hs
        refine h.go (f := f) rfl rfl rfl rfl rfl (by simp [hp, regOf]) rfl (by simp [hp]) (by simp) (by simp [hp, notifying]) ?_
        intro j hj; simp only [upd_apply] at hj; split at hj
        · subst_vars; exact .inr ⟨_, _, rfl⟩
        · exact .inl hj
    · rename_i op u i hp
      split at hs <;> try (simp only [reduceCtorEq] at hs; done)
      rename_i hlk
      obtain ⟨e1, e2, e3, e4, e5, e6⟩ := finish_wait hs
      simp only at e1 e2 e3 e4 e5 e6
      refine ⟨?_, ?_, ?_⟩
      · rw [e1, e2, e3]
        refine (h.w.notifyAll i (q' := upd s.q i []) (fun j => by rw [upd_apply])).congr (fun _ => rfl) ?_
        intro g; rw [e6, upd_apply]; split
        · subst_vars; simp [hp, regOf]
        · rfl
      · intro j g; rw [e4, e6, upd_apply, h.sp]; split
        · subst_vars; simp [hp]
        · rfl
      · intro g j hb hri
        rw [e5] at hri
        have hgf : g ≠ f := by
          rintro rfl; rw [e6, upd_same] at hb; simp [blockedOn] at hb
        rw [e6, upd_other _ _ hgf, e1, h.w.ready_notifyAll] at hb
        have hb' : blockedOn (s.pc g) (s.c.ready g) j := by
          rcases hb with hb | ⟨hb, hx⟩
          · exact .inl hb
          · refine .inr ⟨hb, ?_⟩; simp only [Bool.or_eq_false_iff] at hx; exact hx.1
        have hji : j ≠ i := by
          rintro rfl
          rcases hb with ⟨op', u', e⟩ | ⟨⟨op', u', ep, e⟩, hx⟩
          · have := (h.sp j g).2 ⟨_, _, e⟩; rw [hlk] at this; cases this
          · simp only [Bool.or_eq_false_iff, decide_eq_false_iff_not] at hx
            exact hx.2 (h.w.mem_live_iff.2 ⟨⟨j, ep, op'.dl, false⟩, by simp [e, regOf], rfl, rfl, hx.1⟩)
        obtain ⟨k, hk⟩ := h.pend g j hb' hri
        have hkf : k ≠ f := by
          rintro rfl; rw [hp] at hk; simp only [notifying, Pc.notify.injEq] at hk
          obtain ⟨_, _, _, _, e⟩ := hk; exact hji e.symm
        exact ⟨k, by rw [e6, upd_other _ _ hkf]; exact hk⟩
    · rename_i op u i hp
      split at hs
      · exact hend hs (by simp [hp, regOf]) (by simp [hp]) (by simp [hp, notifying])
      · rename_i hri
        split at hs <;> try (simp only [reduceCtorEq] at hs; done)
        rename_i hlk
        simp only [Option.some.injEq, Prod.mk.injEq] at hs
        obtain ⟨rfl, rfl⟩ := hs
        refine ⟨h.w.congr (fun _ => rfl) ?_, ?_, ?_⟩
        · intro g; simp only [upd_apply]; split
          · subst_vars; simp [hp, regOf]
          · rfl
        · intro j g
          have := h.sp j g
          have := h.sp j f
          simp only [upd_apply]
          by_cases hj : j = i <;> by_cases hg : g = f <;> simp_all <;> grind
        · intro g j hb hrj
          by_cases hg : g = f
          · subst hg; simp only [upd_same] at hb
            rcases hb with ⟨_, _, e⟩ | ⟨⟨_, _, _, e⟩, -⟩
            · cases e; exact absurd hri hrj
            · cases e
          · simp only [upd_other _ _ hg] at hb
            obtain ⟨k, hk⟩ := h.pend g j hb hrj
            have hkf : k ≠ f := by rintro rfl; rw [hp] at hk; simp [notifying] at hk
            exact ⟨k, by simp only [upd_other _ _ hkf]; exact hk⟩
    · rename_i op u i hp
      simp only [Option.some.injEq, Prod.mk.injEq] at hs
      obtain ⟨rfl, rfl⟩ := hs
      refine ⟨h.w.enqueue (f := f) (i := i) (dl := op.dl) (by simp [hp, regOf]) (fun j => upd_apply _ _ _ _) ?_, ?_, ?_⟩
      · intro g; simp only [upd_apply]; split
        · subst_vars; simp [regOf]
        · rfl
      · intro j g
        have := h.sp j g
        have hf := (h.sp i f).2 ⟨_, _, hp⟩
        have hfj := (h.sp j f).1
        simp only [upd_apply]
        by_cases hj : j = i
        · subst hj
          by_cases hg : g = f
          · simp [hg]
          · simp only [if_true, reduceCtorEq, if_neg hg, false_iff]
            rw [← h.sp, hf]; simpa using fun e => hg e.symm
        · by_cases hg : g = f
          · subst hg; simp only [if_neg hj, if_true]
            refine ⟨fun hh => ?_, fun ⟨_, _, e⟩ => by cases e⟩
            obtain ⟨_, _, e⟩ := hfj hh; rw [hp] at e; cases e; exact absurd rfl hj
          · simp only [if_neg hj, if_neg hg]; exact this
      · intro g j hb hrj
        have hb' : blockedOn (s.pc g) (s.c.ready g) j := by
          by_cases hg : g = f
          · subst hg; simp only [upd_same] at hb
            rcases hb with ⟨_, _, e⟩ | ⟨⟨_, _, _, e⟩, -⟩
            · cases e
            · cases e; exact .inl ⟨_, _, hp⟩
          · simp only [upd_other _ _ hg] at hb; exact hb
        obtain ⟨k, hk⟩ := h.pend g j hb' hrj
        have hkf : k ≠ f := by rintro rfl; rw [hp] at hk; simp [notifying] at hk
        exact ⟨k, by simp only [upd_other _ _ hkf]; exact hk⟩
    · rename_i op u i ep hp
      split at hs <;> try (simp only [reduceCtorEq] at hs; done)
      rename_i hrd
      have hpend : ∀ {p : Pc V E} {s' : State V E}, s'.pc = upd s.pc f p → s'.c = consumeReady s.c f → s'.res = s.res →
          s'.splk = s.splk → (∀ b j, ¬ blockedOn p b j) →
          WInv s'.c s'.q s'.now (fun f => regOf (s'.pc f)) → WI s' := by
        intro p s' e1 e2 e3 e4 hnb hw
        refine ⟨hw, ?_, ?_⟩
        · intro j g; rw [e4, e1, upd_apply, h.sp]; split
          · rename_i hgf; rw [hgf, hp]
            exact ⟨fun ⟨_, _, e⟩ => (nomatch e), fun ⟨_, _, e⟩ => absurd (.inl ⟨_, _, e⟩) (hnb false j)⟩
          · rfl
        · intro g j hb hrj
          have hg : g ≠ f := by rintro rfl; rw [e1, upd_same] at hb; exact hnb _ _ hb
          rw [e1, upd_other _ _ hg, e2] at hb
          simp only [consumeReady, upd_other _ _ hg] at hb
          rw [e3] at hrj
          obtain ⟨k, hk⟩ := h.pend g j hb hrj
          have hkf : k ≠ f := by rintro rfl; rw [hp] at hk; simp [notifying] at hk
          exact ⟨k, by simp only [e1, upd_other _ _ hkf]; exact hk⟩
      split at hs
      · rename_i hd
        simp only [Option.some.injEq, Prod.mk.injEq] at hs
        obtain ⟨rfl, rfl⟩ := hs
        refine hpend rfl rfl rfl rfl (by simp [blockedOn]) (h.w.resume (f := f) (r := ⟨i, ep, op.dl, false⟩) (by simp [hp, regOf]) hrd (by simp [hd]) ?_)
        intro g; simp only [upd_apply]; split <;> simp_all [regOf]
      · rename_i d hd
        split at hs <;> simp only [Option.some.injEq, Prod.mk.injEq] at hs <;> obtain ⟨rfl, rfl⟩ := hs
        · rename_i hlt
          refine hpend rfl rfl rfl rfl (by simp [blockedOn]) (h.w.resume (f := f) (r := ⟨i, ep, op.dl, false⟩) (by simp [hp, regOf]) hrd (by simp [hd, hlt]) ?_)
          intro g; simp only [upd_apply]; split <;> simp_all [regOf]
        · rename_i hlt
          refine hpend rfl rfl rfl rfl (by simp [blockedOn]) (h.w.resumeLate (f := f) (r := ⟨i, ep, op.dl, false⟩) (by simp [hp, regOf]) hrd hd (by omega) ?_)
          intro g; simp only [upd_apply]; split <;> simp_all [regOf]
    · rename_i op u i ep hp
      split at hs <;> try (simp only [reduceCtorEq] at hs; done)
      simp only [Option.some.injEq, Prod.mk.injEq] at hs
      obtain ⟨rfl, rfl⟩ := hs
      refine ⟨h.w.unlink (f := f) (r := ⟨i, ep, op.dl, true⟩) (by simp [hp, regOf]) rfl (fun j => upd_apply _ _ _ _) ?_, ?_, ?_⟩
      · intro g; simp only [upd_apply]; split <;> simp_all [regOf]
      · intro j g; simp only [upd_apply, h.sp]; split
        · subst_vars; simp [hp]
        · rfl
      · intro g j hb hrj
        have hg : g ≠ f := by rintro rfl; simp [upd_same, blockedOn] at hb
        simp only [upd_other _ _ hg] at hb
        obtain ⟨k, hk⟩ := h.pend g j hb hrj
        have hkf : k ≠ f := by rintro rfl; rw [hp] at hk; simp [notifying] at hk
        exact ⟨k, by simp only [upd_other _ _ hkf]; exact hk⟩
    · rename_i op u i hp
      split at hs
      · exact hend hs (by simp [hp, regOf]) (by simp [hp]) (by simp [hp, notifying])
      · exact hend hs (by simp [hp, regOf]) (by simp [hp]) (by simp [hp, notifying])

theorem wi_step {s s' : State V E} {e : Event V E} {o : List (Obs V E)} (hc : Core s none) (h : WI s)
    (hs : step false s e = some (s', o)) : WI s' := by
  cases e with
  | call f op =>
    simp only [step] at hs
    split at hs <;> try (simp only [reduceCtorEq] at hs; done)
    rename_i hf
    have hid := idle_of_sid hf
    split at hs
    · simp at hs
    · rename_i s2 o2 h2
      simp only [Option.some.injEq, Prod.mk.injEq] at hs
      obtain ⟨rfl, rfl⟩ := hs
      obtain ⟨e1, e2, e3, e4, e5, e6⟩ := call_wait h2
      rcases e6 with e6 | ⟨p, e6, hp⟩
      · exact h.same e1 e2 e3 e4 e6 e5
      · refine h.go e1 e2 e3 e4 e6 (by simp [hid, regOf]) ?_ (by simp [hid]) ?_ (by simp [hid, notifying]) (fun i hi => .inl (by rwa [e5] at hi))
        · rcases hp with ⟨_, _, _, _, _, rfl⟩ | ⟨_, _, rfl⟩ | ⟨_, _, _, rfl⟩ <;> rfl
        · rcases hp with ⟨_, _, _, _, _, rfl⟩ | ⟨_, _, rfl⟩ | ⟨_, _, _, rfl⟩ <;> simp
  | run f => exact wi_run hc h hs
  | timer f =>
    simp only [step] at hs
    split at hs <;> try (simp only [reduceCtorEq] at hs; done)
    rename_i op u i ep hp
    split at hs <;> try (simp only [reduceCtorEq] at hs; done)
    rename_i d hd
    split at hs <;> try (simp only [reduceCtorEq] at hs; done)
    rename_i hle
    simp only [Option.some.injEq, Prod.mk.injEq] at hs
    obtain ⟨rfl, rfl⟩ := hs
    refine ⟨h.w.timer (f := f) (r := ⟨i, ep, op.dl, false⟩) (by simp [hp, regOf]) rfl hd hle, h.sp, ?_⟩
    intro g j hb hrj
    refine h.pend g j ?_ hrj
    rcases hb with hb | ⟨hb, hx⟩
    · exact .inl hb
    · refine .inr ⟨hb, ?_⟩
      simp only [wake] at hx
      split at hx
      · simp only [upd_apply] at hx; split at hx <;> simp_all
      · exact hx
  | tick n =>
    simp only [step, Option.some.injEq, Prod.mk.injEq] at hs
    obtain ⟨rfl, rfl⟩ := hs
    exact ⟨h.w.tick n, h.sp, h.pend⟩
  | elsewhere f n =>
    simp only [step] at hs
    split at hs <;> try (simp only [reduceCtorEq] at hs; done)
    rename_i hf
    simp only [Option.some.injEq, Prod.mk.injEq] at hs
    obtain ⟨rfl, rfl⟩ := hs
    exact ⟨h.w.elsewhere (by simp [idle_of_sid hf, regOf]) n, h.sp, h.pend⟩

theorem reach_wi {s : State V E} {tr : List (Obs V E)} (h : Reach (step false) init s tr) : WI s :=
  Reach.inv (fun s _ => WI s) wi_init (fun _ _ _ _ _ hr hi hs => wi_step (reach_core hr) hi hs) h

end Verif.Fut
