import Verif.WeakUnbufReach

/-! # Steps of the unbuffered channel under weak memory that write -/

namespace Verif.WeakUnbuf

open Weak

theorem upd_upd {α : Type} (f : Nat → α) (i : Nat) (a b : α) : upd (upd f i a) i b = upd f i b := by
  funext j; simp only [upd_apply]; split <;> rfl

/-- A read-modify-write reads the last message. -/
theorem consec {f : Nat → Option Msg} {t : Nat} {n : Msg} (h : ∃ k, ∀ t, (f t).isSome = true ↔ t ≤ k) (h1 : (f t).isSome = true)
    (h2 : f (t + 1) = none) : ∀ k, (upd f (t + 1) (some n) k).isSome = true ↔ k ≤ t + 1 := by
  obtain ⟨N, h⟩ := h
  have h3 := (h t).1 h1
  have h4 : ¬ t + 1 ≤ N := fun h5 => by have := (h (t + 1)).2 h5; rw [h2] at this; cases this
  intro k
  simp only [upd_apply]
  split
  · rename_i hk; exact ⟨fun _ => by omega, fun _ => rfl⟩
  · rename_i hk; exact (h k).trans ⟨fun _ => by omega, fun _ => by omega⟩

/-- A push call puts its slot. -/
theorem Inv.put {s : State} {tr : List Obs} {w c t : Nat} {v : Nat} {m : Mem} {g : Msg} (h : Inv s tr) (hp : s.pc w = .pCas c)
    (M : Modified s.mem w 0 t (fun _ => c + 1) true true v m g) :
    Inv { s with mem := m, pc := upd s.pc w (.pNotify c), pub := upd s.pub c true } tr := by
  have G := h.glob
  have A := h.at_ w
  rw [hp] at A
  obtain ⟨hthr, hal, hlt⟩ := A.call c rfl
  obtain ⟨hpub, hown, hlast⟩ := A.pre c rfl
  obtain ⟨n, hv, _, hn, _, hm⟩ := M.msg
  have cmono : ∀ u y, s.mem.cur u y ≤ m.cur u y := by
    intro u y
    by_cases hu : u = w
    · rw [hu]; exact M.mono y
    · rw [M.others u hu]; exact Nat.le_refl _
  have hm0 : m.msg 0 = upd (s.mem.msg 0) (t + 1) (some n) := by rw [hm, upd_same]
  have hm1 : m.msg 1 = s.mem.msg 1 := by rw [hm, upd_other _ _ (by decide)]
  have hcs := consec (n := n) G.slot (by rw [M.read]; rfl) M.free
  have pmono : ∀ d, s.pub d = true → upd s.pub c true d = true := by
    intro d hd
    simp only [upd_apply]; split
    · rfl
    · exact hd
  refine h.next (w := w) ⟨⟨t + 1, by rw [hm0]; exact hcs⟩, by rw [hm1]; exact G.flag, by rw [hm1]; exact G.flagVal, ?_, ?_, ?_, G.live, G.ok, ?_, ?_, ?_⟩ ?_ ?_
  · intro k gk d h1 h2
    simp only at h1
    rw [hm0, upd_apply] at h1
    split at h1
    · cases h1
      rw [hv] at h2
      have : d = c := by omega
      subst this
      simp only [upd_same]
    · exact pmono d (G.refs k gk d h1 h2)
  · intro k gk d h1 h2 h3
    simp only at h1 h2
    rw [hm0] at h1 h2
    have hk : k = t + 1 := by
      have h4 := (hcs k).1 (by rw [h1]; rfl)
      have h5 : ¬ k + 1 ≤ t + 1 := fun h6 => by have := (hcs (k + 1)).2 h6; rw [h2] at this; cases this
      omega
    rw [hk, upd_same] at h1
    cases h1
    rw [hv] at h3
    have : d = c := by omega
    subst this
    refine ⟨hown, ?_⟩
    simp only [M.last]
    exact Nat.le_trans hlast (Nat.le_trans (M.mono _) (hn rfl _))
  · intro d hd
    simp only [upd_apply] at hd
    split at hd
    · rename_i e; rw [e]; exact hlt
    · exact G.pub d hd
  · intro x u hx
    simp only [M.last]
    exact Nat.le_trans (G.own x u hx) (cmono u _)
  · intro z hz
    refine ⟨(G.left z hz).1, ?_⟩
    have hZ := (G.left z hz).2
    unfold LeftOk at hZ ⊢
    simp only
    split <;> rename_i ho <;> rw [ho] at hZ <;> simp only at hZ
    · rw [hm1, M.last]; exact hZ
    · rw [M.last]; exact ⟨hZ.1, fun u hu => Nat.le_trans (hZ.2 u hu) (cmono u _)⟩
  · intro hf q
    exact ⟨(G.fin hf q).1, (G.fin hf q).2.1, fun u hu => Nat.le_trans ((G.fin hf q).2.2 u hu) (cmono u _)⟩
  · simp only [upd_same]
    refine ⟨A.alive, ?_, ?_, (by intro q h; cases h), ?_, A.call, (by intro q h; cases h), ?_, ?_, ?_, ?_, (by intro q h; cases h),
      (by intro q h; cases h), (by intro q h; cases h), (by intro h; cases h), (by intro q h; cases h), (by intro h; cases h)⟩
    · intro q; rw [A.held q]; cases q <;> exact Iff.rfl
    · intro q e he
      have := stale A (.inl rfl) he
      exact ⟨Nat.le_of_lt this, fun h => by simp only at h; omega⟩
    · intro hr
      simp only at hr
      rw [not_ready A rfl (fun _ => ⟨nofun, nofun⟩)] at hr; cases hr
    · intro d hd; rcases hd with hd | hd <;> cases hd
    · intro d hd
      rcases hd with hd | hd
      · cases hd; exact .inl (A.tries c (.inr rfl))
      · cases hd
    · intro d hd; cases hd
    · intro d hd; cases hd; simp only [upd_same]
  · intro u hu
    refine ⟨by simp only [upd_other _ _ hu], ?_⟩
    fr_base
    · exact fun y => cmono u y
    · exact pmono
    · intro d _ hd
      simp only
      rw [upd_other _ _ (fun e => hu (by rw [← hd, e]; exact hthr))]
    · intro x _; simp only [M.last]

/-- A pop takes a value, and gives data `y` in return. -/
theorem Inv.get {s : State} {tr : List Obs} {w c t : Nat} {y : Option Nat} {v : Nat} {m : Mem} {g : Msg} {own' : Nat → Place} (h : Inv s tr)
    (hp : s.pc w = .oCas y c) (M : Modified s.mem w 0 t (fun _ => 0) true true v m g) (hvc : v = c + 1)
    (ho : own' (s.val c) = .taken c w) (ho' : ∀ x, x ≠ s.val c → (y ≠ some x ∧ own' x = s.own x) ∨ (y = some x ∧ own' x = .back c)) :
    Inv { s with mem := m, pc := upd s.pc w (.oNotify c), back := upd s.back c y, own := own' } tr := by
  have G := h.glob
  have A := h.at_ w
  rw [hp] at A
  obtain ⟨n, hv, _, hn, _, hm⟩ := M.msg
  have cmono : ∀ u y, s.mem.cur u y ≤ m.cur u y := by
    intro u y
    by_cases hu : u = w
    · rw [hu]; exact M.mono y
    · rw [M.others u hu]; exact Nat.le_refl _
  have hm0 : m.msg 0 = upd (s.mem.msg 0) (t + 1) (some n) := by rw [hm, upd_same]
  have hm1 : m.msg 1 = s.mem.msg 1 := by rw [hm, upd_other _ _ (by decide)]
  have hcs := consec (n := n) G.slot (by rw [M.read]; rfl) M.free
  obtain ⟨hown, hlast⟩ := G.top t g c M.read M.free (by rw [← M.val]; exact hvc)
  have hpub := A.ref c rfl
  have hgift : ∀ d, y = some d → s.own d = .fiber w := fun d hd => A.gift d (by rw [hd]; rfl)
  have hne : ∀ d, y = some d → d ≠ s.val c := fun d hd e => by
    have := hgift d hd; rw [e, hown] at this; cases this
  have key : ∀ x P, s.own x = P → P ≠ .sent c → P ≠ .fiber w → own' x = P := by
    intro x P hx h1 h2
    rcases ho' x (fun e => h1 (by rw [← hx, e]; exact hown)) with h3 | h3
    · rw [h3.2]; exact hx
    · exact absurd (hx.symm.trans (hgift x h3.1)) h2
  have key' : ∀ x P, own' x = P → P ≠ .taken c w → P ≠ .back c → s.own x = P := by
    intro x P hx h1 h2
    rcases ho' x (fun e => h1 (by rw [← hx, e]; exact ho)) with h3 | h3
    · rw [← h3.2]; exact hx
    · exact absurd (hx.symm.trans h3.2) h2
  refine h.next (w := w) ⟨⟨t + 1, by rw [hm0]; exact hcs⟩, by rw [hm1]; exact G.flag, by rw [hm1]; exact G.flagVal, ?_, ?_, G.pub, G.live, G.ok, ?_, ?_, ?_⟩ ?_ ?_
  · intro k gk d h1 h2
    simp only at h1
    rw [hm0, upd_apply] at h1
    split at h1
    · cases h1
      rw [hv] at h2
      omega
    · exact G.refs k gk d h1 h2
  · intro k gk d h1 h2 h3
    simp only at h1 h2
    rw [hm0] at h1 h2
    have hk : k = t + 1 := by
      have h4 := (hcs k).1 (by rw [h1]; rfl)
      have h5 : ¬ k + 1 ≤ t + 1 := fun h6 => by have := (hcs (k + 1)).2 h6; rw [h2] at this; cases this
      omega
    rw [hk, upd_same] at h1
    cases h1
    rw [hv] at h3
    omega
  · intro x u hx
    simp only [M.last]
    exact Nat.le_trans (G.own x u (key' x _ hx (by intro h; cases h) (by intro h; cases h))) (cmono u _)
  · intro z hz
    refine ⟨key z _ (G.left z hz).1 (by intro h; cases h) (by intro h; cases h), ?_⟩
    have hZ := (G.left z hz).2
    unfold LeftOk at hZ ⊢
    simp only
    split <;> rename_i ho <;> rw [ho] at hZ <;> simp only at hZ
    · rw [hm1, M.last]; exact hZ
    · rw [M.last]; exact ⟨hZ.1, fun u hu => Nat.le_trans (hZ.2 u hu) (cmono u _)⟩
  · intro hf q
    exact ⟨(G.fin hf q).1, (G.fin hf q).2.1, fun u hu => Nat.le_trans ((G.fin hf q).2.2 u hu) (cmono u _)⟩
  · simp only [upd_same]
    refine ⟨A.alive, ?_, ?_, (by intro q h; cases h), ?_, (by intro q h; cases h), (by intro q h; cases h), ?_, ?_, ?_, A.ref, ?_,
      (by intro q h; cases h), (by intro q h; cases h), (by intro h; cases h), (by intro q h; cases h), (by intro h; cases h)⟩
    · intro q; rw [A.held q]; cases q <;> exact Iff.rfl
    · intro q e he
      have := stale A (.inl rfl) he
      exact ⟨Nat.le_of_lt this, fun h => by simp only at h; omega⟩
    · intro hr
      simp only at hr
      rw [not_ready A rfl (fun _ => ⟨nofun, nofun⟩)] at hr; cases hr
    · intro d hd; rcases hd with hd | hd <;> cases hd
    · intro d hd; rcases hd with hd | hd <;> cases hd
    · intro d hd; cases hd
    · intro d hd
      cases hd
      simp only [M.last, upd_same]
      refine ⟨ho, Nat.le_trans hlast (M.gain rfl _), fun _ d hd => ⟨?_, ?_⟩⟩
      · rcases ho' d (hne d hd) with h1 | h1
        · exact absurd hd h1.1
        · exact h1.2
      · exact Nat.le_trans (G.own d w (hgift d hd)) (cmono w _)
  · intro u hu
    refine ⟨by simp only [upd_other _ _ hu], ?_⟩
    fr_base
    · exact fun y => cmono u y
    · intro x d hx hd
      exact key x _ hx (by intro h; cases h; rw [hpub] at hd; cases hd) (by intro h; cases h)
    · intro x d _ hx
      exact key' x _ hx (by intro h; cases h) (by intro h; cases h)
    · exact fun x d hx => key x _ hx (by intro h; cases h) (by intro h; cases h)
    · exact fun x d hx _ => key x _ hx (by intro h; cases h) (by intro h; cases h)
    · exact fun x hx => key x _ hx (by intro h; cases h) (by intro h; cases h; exact hu rfl)
    · intro x _; simp only [M.last]
    · intro d hd
      simp only
      rw [upd_other _ _ (fun e => hd (by rw [e]; exact hown))]

/-- `closed_` is set. -/
theorem Inv.mark {s : State} {tr : List Obs} {w t v : Nat} {m : Mem} {g : Msg} {r : Bool} (h : Inv s tr) (M : Modified s.mem w 1 t (fun _ => 1) true r v m g) :
    Inv { s with mem := m } tr := by
  have G := h.glob
  obtain ⟨n, hv, hg, _, _, hm⟩ := M.msg
  have cmono : ∀ u y, s.mem.cur u y ≤ m.cur u y := by
    intro u y
    by_cases hu : u = w
    · rw [hu]; exact M.mono y
    · rw [M.others u hu]; exact Nat.le_refl _
  have hm1 : m.msg 1 = upd (s.mem.msg 1) (t + 1) (some n) := by rw [hm, upd_same]
  have hm0 : m.msg 0 = s.mem.msg 0 := by rw [hm, upd_other _ _ (by decide)]
  have hcs := consec (n := n) G.flag (by rw [M.read]; rfl) M.free
  refine ⟨⟨by rw [hm0]; exact G.slot, ⟨t + 1, by rw [hm1]; exact hcs⟩, ?_, by rw [hm0]; exact G.refs, ?_, G.pub, G.live, G.ok, ?_, ?_, ?_⟩, fun u => ?_⟩
  · intro k gk h1
    simp only at h1
    rw [hm1, upd_apply] at h1
    split at h1
    · rename_i hk
      cases h1
      rw [hv, hk]
      exact ⟨fun h => (by cases h), fun h => (by cases h)⟩
    · exact G.flagVal k gk h1
  · simp only
    rw [hm0, M.last]; exact G.top
  · intro x u hx
    simp only [M.last]
    exact Nat.le_trans (G.own x u hx) (cmono u _)
  · intro z hz
    refine ⟨(G.left z hz).1, ?_⟩
    have hZ := (G.left z hz).2
    unfold LeftOk at hZ ⊢
    simp only
    split <;> rename_i ho <;> rw [ho] at hZ <;> simp only at hZ
    · rw [hm1, M.last]
      refine ⟨(hcs 1).2 (by omega), fun k gk hk h1 => ?_⟩
      rw [upd_apply] at h1
      split at h1
      · cases h1
        refine Nat.le_trans (hZ.2 t g ?_ M.read) (hg _)
        rcases Nat.eq_zero_or_pos t with h2 | h2
        · have h3 := M.free
          rw [h2] at h3
          rw [h3] at hZ
          cases hZ.1
        · exact h2
      · exact hZ.2 k gk hk h1
    · rw [M.last]; exact ⟨hZ.1, fun u hu => Nat.le_trans (hZ.2 u hu) (cmono u _)⟩
  · intro hf q
    exact ⟨(G.fin hf q).1, (G.fin hf q).2.1, fun u hu => Nat.le_trans ((G.fin hf q).2.2 u hu) (cmono u _)⟩
  · refine (h.at_ u).frame (w := u) G ?_
    fr_base
    · exact fun y => cmono u y
    · intro x _; simp only [M.last]

/-- `close` leaves data. -/
theorem Inv.give {s : State} {tr : List Obs} {w z : Nat} (h : Inv s tr) (ho : s.own z = .fiber w) (hl : LeftOk s z)
    (h1 : (s.pc w).push? = none) (h2 : (s.pc w).took? = none) (h3 : (s.pc w).gift? s.offer = none) :
    Inv { s with left := some z, own := upd s.own z .left } tr := by
  have G := h.glob
  have key : ∀ x P, s.own x = P → P ≠ .fiber w → upd s.own z .left x = P := by
    intro x P hx hP
    rw [upd_other _ _ (fun e => hP (by rw [← hx, e]; exact ho))]
    exact hx
  have key' : ∀ x P, upd s.own z .left x = P → P ≠ .left → s.own x = P := by
    intro x P hx hP
    rw [upd_apply] at hx
    split at hx
    · exact absurd hx.symm hP
    · exact hx
  refine h.next (w := w) ⟨G.slot, G.flag, G.flagVal, G.refs, ?_, G.pub, G.live, G.ok, ?_, ?_, G.fin⟩ ?_ ?_
  · intro k gk d h1 h2 h3
    exact ⟨key _ _ (G.top k gk d h1 h2 h3).1 (by intro h; cases h), (G.top k gk d h1 h2 h3).2⟩
  · exact fun x u hx => G.own x u (key' x _ hx (by intro h; cases h))
  · intro x hx
    cases hx
    exact ⟨upd_same _ _ _, hl⟩
  · have A := h.at_ w
    refine ⟨A.alive, A.held, A.ent, A.queued, A.ready, A.call, ?_, A.tries, ?_, ?_, A.ref, ?_, ?_, A.offer, A.closing, A.emptied, A.checked⟩
    · intro c hc; rw [Pc.pre_push hc] at h1; cases h1
    · intro c hc; simp only at hc; rcases hc with hc | hc <;> rw [hc] at h1 <;> cases h1
    · intro c hc; simp only at hc; rw [hc] at h1; cases h1
    · intro c hc; simp only at hc; rw [hc] at h2; cases h2
    · intro c hc; simp only at hc; rw [hc] at h3; cases h3
  · intro u hu
    refine ⟨rfl, ?_⟩
    fr_base
    · exact fun x c hx _ => key x _ hx (by intro h; cases h)
    · exact fun x c _ hx => key' x _ hx (by intro h; cases h)
    · exact fun x c hx => key x _ hx (by intro h; cases h)
    · exact fun x c hx _ => key x _ hx (by intro h; cases h)
    · exact fun x hx => key x _ hx (by intro h; cases h; exact hu rfl)

/-- A pop returns with a value. -/
theorem Inv.popped {s : State} {tr : List Obs} {w c : Nat} (h : Inv s tr) (hp : s.pc w = .oWake c) :
    Inv { s with pc := upd s.pc w .idle, own := upd s.own (s.val c) (.fiber w) } (tr ++ [.popped w c (s.val c)]) := by
  have h := h.quiet (o := [.popped w c (s.val c)]) (by simp)
  generalize tr ++ [.popped w c (s.val c)] = tr at h
  have G := h.glob
  have A := h.at_ w
  rw [hp] at A
  obtain ⟨h1, h2, _⟩ := A.took c rfl
  have key : ∀ x P, s.own x = P → P ≠ .taken c w → upd s.own (s.val c) (.fiber w) x = P := by
    intro x P hx hP
    rw [upd_other _ _ (fun e => hP (by rw [← hx, e]; exact h1))]
    exact hx
  have key' : ∀ x P, upd s.own (s.val c) (.fiber w) x = P → P ≠ .fiber w → s.own x = P := by
    intro x P hx hP
    rw [upd_apply] at hx
    split at hx
    · exact absurd hx.symm hP
    · exact hx
  refine h.next (w := w) ⟨G.slot, G.flag, G.flagVal, G.refs, ?_, G.pub, G.live, G.ok, ?_, ?_, G.fin⟩ ?_ ?_
  · intro k gk d h1 h2 h3
    exact ⟨key _ _ (G.top k gk d h1 h2 h3).1 (by intro h; cases h), (G.top k gk d h1 h2 h3).2⟩
  · intro x u hx
    simp only [upd_apply] at hx
    split at hx
    · rename_i e; cases hx; rw [e]; exact h2
    · exact G.own x u hx
  · intro z hz
    exact ⟨key z _ (G.left z hz).1 (by intro h; cases h), (G.left z hz).2⟩
  · simp only [upd_same]
    refine ⟨A.alive, ?_, ?_, (by intro q h; cases h), ?_, (by intro q h; cases h), (by intro q h; cases h), ?_, ?_, ?_, (by intro q h; cases h), (by intro q h; cases h),
      (by intro q h; cases h), (by intro q h; cases h), (by intro h; cases h), (by intro q h; cases h), (by intro h; cases h)⟩
    · intro q; rw [A.held q]; cases q <;> exact Iff.rfl
    · intro q e he
      have := stale A (.inl rfl) he
      exact ⟨Nat.le_of_lt this, fun h => by simp only at h; omega⟩
    · intro hr
      simp only at hr
      rw [not_ready A rfl (fun _ => ⟨nofun, nofun⟩)] at hr; cases hr
    · intro d hd; rcases hd with hd | hd <;> cases hd
    · intro d hd; rcases hd with hd | hd <;> cases hd
    · intro d hd; cases hd
  · intro u hu
    refine ⟨by simp only [upd_other _ _ hu], ?_⟩
    fr_base
    · exact fun x c hx _ => key x _ hx (by intro h; cases h)
    · exact fun x c _ hx => key' x _ hx (by intro h; cases h)
    · exact fun x d hx => key x _ hx (by intro h; cases h; exact hu rfl)
    · exact fun x c hx _ => key x _ hx (by intro h; cases h)
    · exact fun x hx => key x _ hx (by intro h; cases h)

/-- `close` returns. -/
theorem Inv.finish {s : State} {tr : List Obs} {w : Nat} {z : Option Nat} (h : Inv s tr) (hp : s.pc w = .cCons z) (h1 : s.wq .prod = []) (h2 : s.wq .cons = [])
    (h3 : ∀ q, 1 ≤ s.lview q 1) (h4 : s.held .cons = none) :
    Inv { s with pc := upd s.pc w .idle, held := fun p => if p = .prod then none else s.held p } (tr ++ [.closed w true]) := by
  have G := h.glob
  have A := h.at_ w
  rw [hp] at A
  have hh : ∀ q u, (if q = Q.prod then none else s.held q) ≠ some u := by
    intro q u
    split
    · intro h; cases h
    · rename_i hq
      cases q
      · exact absurd rfl hq
      · rw [h4]; intro h; cases h
  have hpr : s.held .prod = some w := (A.held .prod).2 rfl
  have ho : ∀ u, u ≠ w → ∀ q, s.held q ≠ some u := by
    intro u hu q hq
    cases q
    · rw [hpr] at hq; exact hu (Option.some.inj hq).symm
    · rw [h4] at hq; cases hq
  refine h.next (w := w) ⟨G.slot, G.flag, G.flagVal, G.refs, G.top, G.pub, G.live, G.ok, G.own, ?_, ?_⟩ ?_ ?_
  · intro z hz
    refine ⟨(G.left z hz).1, ?_⟩
    have hZ := (G.left z hz).2
    unfold LeftOk at hZ ⊢
    simp only
    split <;> rename_i ho <;> rw [ho] at hZ <;> simp only at hZ
    · exact hZ
    · exact ⟨hZ.1, fun u hu => absurd hu (hh _ u)⟩
  · intro _ q
    exact ⟨by cases q <;> assumption, h3 q, fun u hu => absurd hu (hh _ u)⟩
  · simp only [upd_same]
    refine ⟨A.alive, ?_, ?_, (by intro q h; cases h), ?_, (by intro q h; cases h), (by intro q h; cases h), ?_, ?_, ?_, (by intro q h; cases h), (by intro q h; cases h),
      (by intro q h; cases h), (by intro q h; cases h), (by intro h; cases h), (by intro q h; cases h), (by intro h; cases h)⟩
    · intro q
      exact ⟨fun h => absurd h (hh q w), fun h => by cases q <;> cases h⟩
    · intro q e he
      have := stale A (.inl rfl) he
      exact ⟨Nat.le_of_lt this, fun h => by simp only at h; omega⟩
    · intro hr
      simp only at hr
      rw [not_ready A rfl (fun _ => ⟨nofun, nofun⟩)] at hr; cases hr
    · intro d hd; rcases hd with hd | hd <;> cases hd
    · intro d hd; rcases hd with hd | hd <;> cases hd
    · intro d hd; cases hd
  · intro u hu
    refine ⟨by simp only [upd_other _ _ hu], ?_⟩
    fr_base
    · exact fun q => ⟨fun h => absurd h (hh q u), fun h => absurd h (ho u hu q)⟩
    · exact fun _ h => List.mem_append_left _ h
    · exact fun _ => .inr (ho u hu)

/-- `push` is called. -/
theorem Inv.push {s : State} {tr : List Obs} {w x : Nat} (h : Inv s tr) (hp : s.pc w = .idle) (ho : s.own x = .fiber w) :
    Inv { s with
        pc := upd s.pc w (.pStart s.calls), own := upd s.own x (.sent s.calls), calls := s.calls + 1,
        thr := upd s.thr s.calls w, val := upd s.val s.calls x, alive := upd s.alive s.calls true } tr := by
  have G := h.glob
  have A := h.at_ w
  rw [hp] at A
  have lt_ne : ∀ {c}, c < s.calls → c ≠ s.calls := fun h e => by omega
  have key : ∀ y P, s.own y = P → P ≠ .fiber w → upd s.own x (.sent s.calls) y = P := by
    intro y P hy hP
    rw [upd_other _ _ (fun e => hP (by rw [← hy, e]; exact ho))]
    exact hy
  have key' : ∀ y P, upd s.own x (.sent s.calls) y = P → P ≠ .sent s.calls → s.own y = P := by
    intro y P hy hP
    rw [upd_apply] at hy
    split at hy
    · exact absurd hy.symm hP
    · exact hy
  refine h.next (w := w) ⟨G.slot, G.flag, G.flagVal, G.refs, ?_, ?_, ?_, G.ok, ?_, ?_, G.fin⟩ ?_ ?_
  · intro k gk d h1 h2 h3
    have hd := G.pub d (G.refs k gk d h1 h3)
    simp only
    rw [upd_other s.val _ (lt_ne hd)]
    exact ⟨key _ _ (G.top k gk d h1 h2 h3).1 (by intro h; cases h), (G.top k gk d h1 h2 h3).2⟩
  · exact fun c hc => Nat.lt_succ_of_lt (G.pub c hc)
  · intro c hc
    simp only [upd_apply] at hc ⊢
    split at hc
    · omega
    · exact Nat.lt_succ_of_lt (G.live c hc)
  · exact fun y u hy => G.own y u (key' y _ hy (by intro h; cases h))
  · exact fun z hz => ⟨key z _ (G.left z hz).1 (by intro h; cases h), (G.left z hz).2⟩
  · simp only [upd_same]
    refine ⟨?_, ?_, ?_, (by intro q h; cases h), ?_, ?_, ?_, ?_, ?_, ?_, (by intro q h; cases h), (by intro q h; cases h),
      (by intro q h; cases h), (by intro q h; cases h), (by intro h; cases h), (by intro q h; cases h), (by intro h; cases h)⟩
    · intro c ha ht
      simp only [upd_apply] at ha ht
      by_cases hc : c = s.calls
      · rw [hc]; rfl
      · rw [if_neg hc] at ha ht
        cases A.alive c ha ht
    · intro q; rw [A.held q]; cases q <;> exact Iff.rfl
    · intro q e he
      have := stale A (.inl rfl) he
      exact ⟨Nat.le_of_lt this, fun h => by simp only at h; omega⟩
    · intro hr
      simp only at hr
      rw [not_ready A rfl (fun _ => ⟨nofun, nofun⟩)] at hr; cases hr
    · intro c hc; cases hc
      simp only [upd_same]; exact ⟨trivial, trivial, by omega⟩
    · intro c hc; cases hc
      simp only [upd_same]
      refine ⟨?_, trivial, G.own x w ho⟩
      cases hb : s.pub s.calls with
      | false => rfl
      | true => have := G.pub _ hb; omega
    · intro d hd; rcases hd with hd | hd <;> cases hd
    · intro d hd; rcases hd with hd | hd <;> cases hd
    · intro d hd; cases hd
  · intro u hu
    refine ⟨by simp only [upd_other _ _ hu], ?_⟩
    have hb : ∀ c, s.own (s.val c) ≠ .sent c → s.back c = s.back c := fun _ _ => rfl
    fr_base
    · exact Nat.le_succ _
    · exact fun c hc => by simp only; rw [upd_other _ _ (lt_ne hc)]
    · exact fun c hc => by simp only; rw [upd_other _ _ (lt_ne hc)]
    · exact fun c hc _ => by simp only; rw [upd_other _ _ (lt_ne hc)]
    · intro c ht ha
      simp only [upd_apply] at ha ht
      by_cases hc : c = s.calls
      · rw [if_pos hc] at ht; exact absurd ht.symm hu
      · rw [if_neg hc] at ha ht
        exact ⟨ht, G.live c ha⟩
    · intro c hc ha
      simp only at ha
      rw [upd_other _ _ (lt_ne hc)] at ha; exact ha
    · exact fun y c hy _ => key y _ hy (by intro h; cases h)
    · intro y c hc hy
      exact key' y _ hy (by intro h; cases h; omega)
    · exact fun y c hy => key y _ hy (by intro h; cases h)
    · exact fun y c hy _ => key y _ hy (by intro h; cases h)
    · exact fun y hy => key y _ hy (by intro h; cases h; exact hu rfl)

/-- Data is used. -/
theorem Inv.use {s : State} {tr : List Obs} {w x : Nat} {b : Bool} {m : Mem} (h : Inv s tr) (ho : s.own x = .fiber w) (hp : s.pc w = .idle)
    (T : Touched s.mem w (x + 2) b m) : Inv { s with mem := m } tr := by
  have G := h.glob
  have cmono : ∀ u y, s.mem.cur u y ≤ m.cur u y := by
    intro u y
    by_cases hu : u = w
    · rw [hu]; exact T.mono y
    · rw [T.others u hu]; exact Nat.le_refl _
  have last : ∀ y, s.own y ≠ .fiber w → m.last (y + 2) = s.mem.last (y + 2) := by
    intro y hy
    rw [T.last, upd_other _ _ (fun e => hy (by have : y = x := by omega
                                               rw [this]; exact ho))]
  refine ⟨⟨by simp only [T.msg]; exact G.slot, by simp only [T.msg]; exact G.flag, by simp only [T.msg]; exact G.flagVal,
    by simp only [T.msg]; exact G.refs, ?_, G.pub, G.live, G.ok, ?_, ?_, ?_⟩, fun u => ?_⟩
  · intro k gk d h1 h2 h3
    simp only [T.msg] at h1 h2
    obtain ⟨h4, h5⟩ := G.top k gk d h1 h2 h3
    refine ⟨h4, ?_⟩
    simp only
    rw [last _ (by rw [h4]; intro h; cases h)]; exact h5
  · intro y u hy
    simp only at hy ⊢
    by_cases hyx : y = x
    · subst hyx
      rw [ho] at hy
      cases hy
      rw [T.last, upd_same]; exact T.new
    · rw [T.last, upd_other _ _ (by omega)]
      exact Nat.le_trans (G.own y u hy) (cmono u _)
  · intro z hz
    have hl := (G.left z hz).1
    refine ⟨hl, ?_⟩
    have hZ := (G.left z hz).2
    have hlz := last z (by rw [hl]; intro h; cases h)
    unfold LeftOk at hZ ⊢
    simp only
    split <;> rename_i ho <;> rw [ho] at hZ <;> simp only at hZ
    · rw [T.msg, hlz]; exact hZ
    · rw [hlz]; exact ⟨hZ.1, fun u hu => Nat.le_trans (hZ.2 u hu) (cmono u _)⟩
  · intro hf q
    exact ⟨(G.fin hf q).1, (G.fin hf q).2.1, fun u hu => Nat.le_trans ((G.fin hf q).2.2 u hu) (cmono u _)⟩
  · refine (h.at_ u).frame (w := w) G ?_
    fr_base
    · exact fun y => cmono u y
    · exact last

/-- The program is broken. -/
theorem Inv.break {s : State} {tr : List Obs} (h : Inv s tr) : Inv { s with broken := true } tr := by
  have G := h.glob
  refine ⟨⟨G.slot, G.flag, G.flagVal, G.refs, G.top, G.pub, G.live, G.ok, G.own, G.left, G.fin⟩, fun u => ?_⟩
  refine (h.at_ u).frame (w := u) G ?_
  fr_base

end Verif.WeakUnbuf
