import Verif.WeakUnbufMove

/-! # The invariant of the unbuffered channel under weak memory holds -/

namespace Verif.WeakUnbuf

open Weak

/-- Nothing happens. -/
theorem Inv.quiet {s : State} {tr o : List Obs} (h : Inv s tr) (ho : ∀ v, Obs.closed v true ∉ o) : Inv s (tr ++ o) := by
  have G := h.glob
  have hf : Fin (tr ++ o) → Fin tr := by
    rintro ⟨v, hv⟩
    rcases List.mem_append.1 hv with h1 | h1
    · exact ⟨v, h1⟩
    · exact absurd h1 (ho v)
  refine ⟨⟨G.slot, G.flag, G.flagVal, G.refs, G.top, G.pub, G.live, G.ok, G.own, G.left, fun h => G.fin (hf h)⟩, fun u => ?_⟩
  refine (h.at_ u).frame (w := u) G ?_
  fr_base
  · exact fun _ h => List.mem_append_left _ h
  · exact fun h => .inl (hf h)

theorem not_ready {s : State} {tr : List Obs} {w : Nat} {p : Pc} (A : At s tr w p) (hq : p.queue? = none)
    (hw : ∀ c, p ≠ .pNotify c ∧ p ≠ .pWait c) : s.ready w = false := by
  cases hr : s.ready w with
  | false => rfl
  | true =>
    rcases A.ready hr with h1 | ⟨c, h1, _⟩
    · rw [hq] at h1; cases h1
    · rcases h1 with h1 | h1
      · exact absurd h1 (hw c).1
      · exact absurd h1 (hw c).2

theorem stale {s : State} {tr : List Obs} {w : Nat} {p : Pc} (A : At s tr w p) (hq : p.queue? = none ∨ s.ready w = true)
    {q : Q} {e : Nat} (he : (w, e) ∈ s.wq q) : e < s.epoch w := by
  have h1 := A.ent q e he
  rcases Nat.lt_or_ge e (s.epoch w) with h2 | h2
  · exact h2
  · have h3 := h1.2 (Nat.le_antisymm h1.1 h2)
    rcases hq with h4 | h4
    · rw [h4] at h3; cases h3.1
    · rw [h4] at h3; cases h3.2

/-- A push call returns. -/
theorem Inv.ret {s : State} {tr : List Obs} {w c : Nat} {own' : Nat → Place} (h : Inv s tr) (hp : (s.pc w).push? = some c)
    (hh : ∀ q, (s.pc w).holds q = false) (hq : (s.pc w).queue? = none) (hw : ∀ c, s.pc w ≠ .pNotify c ∧ s.pc w ≠ .pWait c)
    (ho : ∀ x, own' x = s.own x ∨ (s.own x = .back c ∧ own' x = .fiber w ∧ s.mem.last (x + 2) ≤ s.mem.cur w (x + 2))) :
    Inv { s with pc := upd s.pc w .idle, alive := upd s.alive c false, own := own' } tr := by
  have G := h.glob
  have A := h.at_ w
  have hc := A.call c hp
  have key : ∀ x P, s.own x = P → P ≠ .back c → own' x = P := by
    intro x P hx hP
    rcases ho x with h1 | h1
    · rw [h1]; exact hx
    · exact absurd (hx.symm.trans h1.1) hP
  refine h.next (w := w) ⟨G.slot, G.flag, G.flagVal, G.refs, ?_, G.pub, ?_, G.ok, ?_, fun z hz => ⟨key z _ (G.left z hz).1 (by intro h; cases h), (G.left z hz).2⟩, G.fin⟩ ?_ ?_
  · intro t g d h1 h2 h3
    obtain ⟨h4, h5⟩ := G.top t g d h1 h2 h3
    exact ⟨key _ _ h4 (by intro h; cases h), h5⟩
  · intro d hd
    simp only [upd_apply] at hd
    split at hd
    · cases hd
    · exact G.live d hd
  · intro x v hx
    simp only at hx
    rcases ho x with h1 | ⟨h1, h2, h3⟩
    · rw [h1] at hx; exact G.own x v hx
    · rw [h2] at hx; cases hx; exact h3
  · simp only [upd_same]
    refine ⟨?_, ?_, ?_, (by intro q h; cases h), ?_, (by intro q h; cases h), (by intro q h; cases h), ?_, ?_, ?_, (by intro q h; cases h), (by intro q h; cases h),
      (by intro q h; cases h), ?_, (by intro h; cases h), ?_, (by intro h; cases h)⟩
    · intro d hd ht
      simp only [upd_apply] at hd
      split at hd
      · cases hd
      · rename_i hne
        have := A.alive d hd ht
        rw [hp] at this
        exact absurd (Option.some.inj this).symm hne
    · intro q
      rw [A.held q, hh q]
      exact ⟨(fun h => by cases h), (fun h => by cases q <;> cases h)⟩
    · intro q e he
      have := stale A (.inl hq) he
      exact ⟨Nat.le_of_lt this, fun h => by simp only at h; omega⟩
    · intro hr
      simp only at hr
      rw [not_ready A hq hw] at hr; cases hr
    · intro d hd; rcases hd with hd | hd <;> cases hd
    · intro d hd; rcases hd with hd | hd <;> cases hd
    · intro d hd; cases hd
    · intro d hd; cases hd
    · intro d hd; cases hd
  · intro u hu
    refine ⟨by simp only [upd_other _ _ hu], ?_⟩
    fr_base
    · intro d _ hd
      simp only
      rw [upd_other _ _ (fun e => hu (by rw [← hd, e]; exact hc.1))]
    · intro d hd ha
      simp only [upd_apply] at ha
      split at ha
      · cases ha
      · exact ⟨hd, G.live d ha⟩
    · intro d _ ha
      simp only [upd_apply] at ha
      split at ha
      · cases ha
      · exact ha
    · exact fun x d hx _ => key x _ hx (by intro h; cases h)
    · intro x d _ hx
      simp only at hx
      rcases ho x with h1 | ⟨_, h2, _⟩
      · rw [← h1]; exact hx
      · rw [h2] at hx; cases hx
    · exact fun x d hx => key x _ hx (by intro h; cases h)
    · intro x d hx ha
      simp only [upd_apply] at ha
      split at ha
      · cases ha
      · rename_i hne
        exact key x _ hx (by intro h; cases h; exact hne rfl)
    · exact fun x hx => key x _ hx (by intro h; cases h)

/-- A push call found the channel open and creates a waker. -/
theorem Inv.open_ {s : State} {tr : List Obs} {w c : Nat} (h : Inv s tr) (hp : s.pc w = .pStart c) :
    Inv { s with pc := upd s.pc w (.pTry c), epoch := upd s.epoch w (s.epoch w + 1), ep := upd s.ep c (s.epoch w + 1) } tr := by
  have G := h.glob
  have A := h.at_ w
  rw [hp] at A
  have hc := A.call c rfl
  refine h.next (w := w) ⟨G.slot, G.flag, G.flagVal, G.refs, G.top, G.pub, G.live, G.ok, G.own, G.left, G.fin⟩ ?_ ?_
  · simp only [upd_same]
    refine ⟨A.alive, ?_, ?_, (by intro q h; cases h), ?_, A.call, A.pre, ?_, ?_, ?_, (by intro q h; cases h), (by intro q h; cases h),
      (by intro q h; cases h), ?_, (by intro h; cases h), ?_, (by intro h; cases h)⟩
    · intro q; rw [A.held q]; cases q <;> exact Iff.rfl
    · intro q e he
      have := stale A (.inl rfl) he
      simp only [upd_same]
      exact ⟨by omega, fun h => by omega⟩
    · intro hr
      simp only at hr
      rw [not_ready A rfl (fun _ => ⟨nofun, nofun⟩)] at hr; cases hr
    · intro d hd
      rcases hd with hd | hd
      · cases hd; simp only [upd_same]
      · cases hd
    · intro d hd; rcases hd with hd | hd <;> cases hd
    · intro d hd; cases hd
    · intro d hd; cases hd
    · intro d hd; cases hd
  · intro u hu
    refine ⟨by simp only [upd_other _ _ hu], ?_⟩
    fr_base
    · simp only [upd_other _ _ hu]
    · intro d _ hd
      simp only
      rw [upd_other _ _ (fun e => hu (by rw [← hd, e]; exact hc.1))]

/-- A fiber suspends in a wait queue. -/
theorem Inv.enq {s : State} {tr : List Obs} {w : Nat} {q : Q} {k : Pc} (h : Inv s tr)
    (hk : (∃ c, s.pc w = .pEmpty c ∧ q = .prod ∧ k = .pQueued c) ∨ (∃ y, s.pc w = .oEmpty y ∧ q = .cons ∧ k = .oQueued y)) :
    Inv (enqueue s w q k) tr := by
  have G := h.glob
  have A := h.at_ w
  have hch : ¬ Fin tr := A.checked (by rcases hk with ⟨c, h1, _⟩ | ⟨c, h1, _⟩ <;> rw [h1] <;> rfl)
  have hhq : s.held q = some w := (A.held q).2 (by rcases hk with ⟨c, h1, h2, _⟩ | ⟨c, h1, h2, _⟩ <;> rw [h1, h2] <;> rfl)
  have hq : (s.pc w).queue? = none := by rcases hk with ⟨c, h1, _⟩ | ⟨c, h1, _⟩ <;> rw [h1] <;> rfl
  have hkq : k.queue? = some q := by rcases hk with ⟨c, _, h2, h3⟩ | ⟨c, _, h2, h3⟩ <;> rw [h2, h3] <;> rfl
  have hw : ∀ c, s.pc w ≠ .pNotify c ∧ s.pc w ≠ .pWait c := by
    intro c; rcases hk with ⟨c, h1, _⟩ | ⟨c, h1, _⟩ <;> rw [h1] <;> exact ⟨nofun, nofun⟩
  have mem : ∀ u p e, (u, e) ∈ (if p = q then s.wq p ++ [(w, s.epoch w + 1)] else s.wq p) → (u, e) ∈ s.wq p ∨ (p = q ∧ u = w ∧ e = s.epoch w + 1) := by
    intro u p e he
    split at he
    · rename_i hp
      rcases List.mem_append.1 he with h1 | h1
      · exact .inl h1
      · simp only [List.mem_singleton, Prod.mk.injEq] at h1; exact .inr ⟨hp, h1⟩
    · exact .inl he
  have mem' : ∀ k p, k ∈ s.wq p → k ∈ (if p = q then s.wq p ++ [(w, s.epoch w + 1)] else s.wq p) := by
    intro k p hk
    split
    · exact List.mem_append_left _ hk
    · exact hk
  have hh : ∀ r u, (if r = q then none else s.held r) = some u → s.held r = some u := by
    intro r u hr
    split at hr
    · cases hr
    · exact hr
  have H : Inv { s with epoch := upd s.epoch w (s.epoch w + 1), wq := (fun p => if p = q then s.wq p ++ [(w, s.epoch w + 1)] else s.wq p), pc := upd s.pc w k, held := fun p => if p = q then none else s.held p } tr := by
    refine h.next (w := w) ⟨G.slot, G.flag, G.flagVal, G.refs, G.top, G.pub, G.live, G.ok, G.own, fun z hz => ⟨(G.left z hz).1, ?_⟩, fun hf => absurd hf hch⟩ ?_ ?_
    · have hZ := (G.left z hz).2
      unfold LeftOk at hZ ⊢
      simp only
      split <;> rename_i ho <;> rw [ho] at hZ <;> simp only at hZ
      · exact hZ
      · exact ⟨hZ.1, fun u hu => hZ.2 u (hh _ u hu)⟩
    · simp only [upd_same]
      refine ⟨?_, ?_, ?_, ?_, ?_, ?_, ?_, ?_, ?_, ?_, ?_, ?_, ?_, ?_, ?_, ?_, ?_⟩
      · intro d hd ht
        have := A.alive d hd ht
        rcases hk with ⟨c, h1, _, h3⟩ | ⟨c, h1, _, h3⟩ <;> rw [h1] at this
        · rw [h3]; exact this
        · cases this
      · intro r
        refine ⟨fun h1 => ?_, fun h1 => ?_⟩
        · simp only at h1
          split at h1
          · cases h1
          · rename_i hne
            have := (A.held r).1 h1
            rcases hk with ⟨c, h2, h3, h4⟩ | ⟨c, h2, h3, h4⟩ <;> rw [h2] at this <;> subst h3 <;> cases r <;> first | exact absurd rfl hne | cases this
        · rcases hk with ⟨c, _, _, h4⟩ | ⟨c, _, _, h4⟩ <;> rw [h4] at h1 <;> cases r <;> cases h1
      · intro r e he
        simp only [upd_same]
        rcases mem w r e he with h1 | ⟨h1, _, h3⟩
        · have := stale A (.inl hq) h1
          exact ⟨by omega, fun h => by omega⟩
        · refine ⟨by omega, fun _ => ⟨by rw [h1]; exact hkq, not_ready A hq hw⟩⟩
      · intro r hr _
        simp only [upd_same]
        rw [hkq] at hr; cases hr
        rw [if_pos rfl]
        exact List.mem_append_right _ List.mem_cons_self
      · intro hr
        simp only at hr
        rw [not_ready A hq hw] at hr; cases hr
      · intro c hc
        refine A.call c ?_
        rcases hk with ⟨c, h2, h3, h4⟩ | ⟨c, h2, h3, h4⟩ <;> rw [h4] at hc <;> rw [h2]
        · exact hc
        · cases hc
      · intro c hc
        refine A.pre c ?_
        rcases hk with ⟨c, h2, h3, h4⟩ | ⟨c, h2, h3, h4⟩ <;> rw [h4] at hc <;> rw [h2]
        · exact hc
        · cases hc
      · intro c hc; rcases hk with ⟨c, h2, h3, h4⟩ | ⟨c, h2, h3, h4⟩ <;> rw [h4] at hc <;> rcases hc with hc | hc <;> cases hc
      · intro c hc; rcases hk with ⟨c, h2, h3, h4⟩ | ⟨c, h2, h3, h4⟩ <;> rw [h4] at hc <;> rcases hc with hc | hc <;> cases hc
      · intro c hc; rcases hk with ⟨c, h2, h3, h4⟩ | ⟨c, h2, h3, h4⟩ <;> rw [h4] at hc <;> cases hc
      · intro c hc; rcases hk with ⟨c, h2, h3, h4⟩ | ⟨c, h2, h3, h4⟩ <;> rw [h4] at hc <;> cases hc
      · intro c hc; rcases hk with ⟨c, h2, h3, h4⟩ | ⟨c, h2, h3, h4⟩ <;> rw [h4] at hc <;> cases hc
      · intro c hc
        refine A.gift c ?_
        rcases hk with ⟨c, h2, h3, h4⟩ | ⟨c, h2, h3, h4⟩ <;> rw [h4] at hc <;> rw [h2]
        · cases hc
        · exact hc
      · intro c hc; rcases hk with ⟨c, h2, h3, h4⟩ | ⟨c, h2, h3, h4⟩ <;> rw [h4] at hc <;> cases hc
      · intro hc; rcases hk with ⟨c, h2, h3, h4⟩ | ⟨c, h2, h3, h4⟩ <;> rw [h4] at hc <;> cases hc
      · intro c hc; rcases hk with ⟨c, h2, h3, h4⟩ | ⟨c, h2, h3, h4⟩ <;> rw [h4] at hc <;> cases hc
      · intro hc; rcases hk with ⟨c, h2, h3, h4⟩ | ⟨c, h2, h3, h4⟩ <;> rw [h4] at hc <;> cases hc
    · intro u hu
      refine ⟨by simp only [upd_other _ _ hu], ?_⟩
      fr_base
      · simp only [upd_other _ _ hu]
      · intro p e
        refine ⟨fun h => ?_, fun h => mem' _ p h⟩
        rcases mem u p e h with h1 | ⟨_, h1, _⟩
        · exact h1
        · exact absurd h1 hu
      · intro r
        refine ⟨fun h => hh r u h, fun h => ?_⟩
        simp only
        split
        · rename_i hr; rw [hr, hhq] at h; exact absurd (Option.some.inj h).symm hu
        · exact h
      · intro h1 h2
        simp only
        split
        · rename_i hp; rw [hp, hhq] at h1; exact absurd (Option.some.inj h1).symm hu
        · exact h2
  exact H.leave w q

/-- A fiber goes on that was woken in a wait queue. -/
theorem Inv.resumeQ {s : State} {tr : List Obs} {w : Nat} {p : Pc} (h : Inv s tr) (hr : s.ready w = true)
    (hk : (∃ c, s.pc w = .pQueued c ∧ p = .pStart c) ∨ (∃ y, s.pc w = .oQueued y ∧ p = .oStart y)) :
    Inv { s with pc := upd s.pc w p, ready := upd s.ready w false } tr := by
  have G := h.glob
  have A := h.at_ w
  refine h.next (w := w) ⟨G.slot, G.flag, G.flagVal, G.refs, G.top, G.pub, G.live, G.ok, G.own, G.left, G.fin⟩ ?_ ?_
  · simp only [upd_same]
    have st : ∀ q e, (w, e) ∈ s.wq q → e < s.epoch w := fun q e he => stale A (.inr hr) he
    rcases hk with ⟨c, h1, h2⟩ | ⟨c, h1, h2⟩ <;> rw [h1] at A <;> subst h2 <;>
    refine ⟨A.alive, ?_, ?_, (by intro q h; cases h), ?_, A.call, A.pre, ?_, ?_, ?_, (by intro q h; cases h), (by intro q h; cases h),
      A.gift, ?_, (by intro h; cases h), ?_, (by intro h; cases h)⟩
    all_goals first
      | (intro q; rw [A.held q]; cases q <;> exact Iff.rfl)
      | (intro q e he; have := st q e he; exact ⟨Nat.le_of_lt this, fun h => by simp only at h; omega⟩)
      | (intro h; simp only [upd_same] at h; cases h)
      | (intro d hd; rcases hd with hd | hd <;> cases hd)
      | (intro d hd; cases hd)
  · intro u hu
    refine ⟨by simp only [upd_other _ _ hu], ?_⟩
    fr_base
    · simp only [upd_other _ _ hu]

/-- A fiber goes on that was woken while it waited for its value to be consumed. -/
theorem Inv.resumeW {s : State} {tr : List Obs} {w c : Nat} (h : Inv s tr) (hr : s.ready w = true) (hp : s.pc w = .pWait c)
    (hm : ∀ y, s.mail w y ≤ s.mem.cur w y) :
    Inv { s with pc := upd s.pc w (.pAfter c), ready := upd s.ready w false } tr := by
  have G := h.glob
  have A := h.at_ w
  rw [hp] at A
  have hd : s.epoch w = s.ep c + 1 ∧ Done s tr (s.mem.cur w) c := by
    have h1 : s.epoch w = s.ep c + 1 := by
      rcases A.ready hr with h1 | ⟨d, h1, h2⟩
      · cases h1
      · rcases h1 with h1 | h1 <;> cases h1; exact h2
    rcases A.wait c (.inr rfl) with h2 | ⟨_, h2⟩
    · omega
    · refine ⟨h1, ?_⟩
      rcases h2 with h2 | ⟨h2, h3, h4⟩
      · exact .inl (Nat.le_trans h2 (hm 1))
      · exact .inr ⟨h2, h3, fun y hy => ⟨(h4 y hy).1, Nat.le_trans (h4 y hy).2 (hm _)⟩⟩
  refine h.next (w := w) ⟨G.slot, G.flag, G.flagVal, G.refs, G.top, G.pub, G.live, G.ok, G.own, G.left, G.fin⟩ ?_ ?_
  · simp only [upd_same]
    refine ⟨A.alive, ?_, ?_, (by intro q h; cases h), ?_, A.call, (by intro q h; cases h), ?_, ?_, ?_, A.ref, (by intro q h; cases h),
      (by intro q h; cases h), ?_, (by intro h; cases h), ?_, (by intro h; cases h)⟩
    · intro q; rw [A.held q]; cases q <;> exact Iff.rfl
    · intro q e he
      have := stale A (.inl rfl) he
      exact ⟨Nat.le_of_lt this, fun h => by simp only at h; omega⟩
    · intro h; simp only [upd_same] at h; cases h
    · intro d hd; rcases hd with hd | hd <;> cases hd
    · intro d hd; rcases hd with hd | hd <;> cases hd
    · intro d hd'; cases hd'; exact hd
    · intro d hd; cases hd
    · intro d hd; cases hd
  · intro u hu
    refine ⟨by simp only [upd_other _ _ hu], ?_⟩
    fr_base
    · simp only [upd_other _ _ hu]

end Verif.WeakUnbuf
