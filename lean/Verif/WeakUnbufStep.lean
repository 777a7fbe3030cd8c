import Verif.WeakUnbufInv

/-! # Steps of the unbuffered channel under weak memory -/

namespace Verif.WeakUnbuf

open Weak

/-- The view of fiber `w` grows. -/
structure Grow (m m' : Mem) (w : Nat) : Prop where
  msg : m'.msg = m.msg
  last : m'.last = m.last
  others : ∀ u, u ≠ w → m'.cur u = m.cur u
  mono : ∀ y, m.cur w y ≤ m'.cur w y

theorem Grow.le {m m' : Mem} {w : Nat} (g : Grow m m' w) (u y : Nat) : m.cur u y ≤ m'.cur u y := by
  by_cases h : u = w
  · rw [h]; exact g.mono y
  · rw [g.others u h]; exact Nat.le_refl _

theorem grow_of_load {m m' : Mem} {w x t v : Nat} {a : Bool} {g : Msg} (h : Loaded m w x t a v m' g) : Grow m m' w :=
  ⟨h.msg, h.last, h.others, h.mono⟩

theorem grow_learn (m : Mem) (w : Nat) (v : View) : Grow m (learn m w v) w := by
  refine ⟨rfl, rfl, fun u hu => ?_, fun y => ?_⟩
  · simp only [learn, upd_other _ _ hu]
  · simp only [learn, upd_same]; exact le_join_left _ _ y

theorem learn_get (m : Mem) (w : Nat) (v : View) (y : Nat) : v y ≤ (learn m w v).cur w y := by
  simp only [learn, upd_same]; exact le_join_right _ _ y

theorem Inv.grow {s : State} {tr : List Obs} {w : Nat} {m : Mem} (h : Inv s tr) (g : Grow s.mem m w) : Inv { s with mem := m } tr := by
  have G := h.glob
  have L : ∀ z, LeftOk s z → LeftOk { s with mem := m } z := by
    intro z hz
    unfold LeftOk at hz ⊢
    simp only
    split <;> rename_i ho <;> rw [ho] at hz <;> simp only at hz
    · rw [g.msg]; exact ⟨hz.1, fun t k ht hm => by rw [g.last]; exact hz.2 t k ht hm⟩
    · rw [g.last]; exact ⟨hz.1, fun u hu => Nat.le_trans (hz.2 u hu) (g.le u _)⟩
  refine ⟨⟨?_, ?_, ?_, ?_, ?_, G.pub, G.live, G.ok, ?_, fun z hz => ⟨(G.left z hz).1, L z (G.left z hz).2⟩, ?_⟩, fun u => ?_⟩
  · simp only [g.msg]; exact G.slot
  · simp only [g.msg]; exact G.flag
  · simp only [g.msg]; exact G.flagVal
  · simp only [g.msg]; exact G.refs
  · simp only [g.msg, g.last]; exact G.top
  · simp only [g.last]; exact fun x u hx => Nat.le_trans (G.own x u hx) (g.le u _)
  · intro hf q
    obtain ⟨h1, h2, h3⟩ := G.fin hf q
    exact ⟨h1, h2, fun u hu => Nat.le_trans (h3 u hu) (g.le u 1)⟩
  · refine (h.at_ u).frame (w := w) G ⟨g.le u, rfl, rfl, rfl, fun _ _ => Iff.rfl, fun _ => Iff.rfl, Nat.le_refl _, fun _ _ => rfl, fun _ _ => rfl,
      fun _ _ _ => rfl, fun _ _ _ => rfl, fun c h ha => ⟨h, G.live c ha⟩, fun _ _ h => h, fun _ h => h, fun _ _ _ => rfl, fun _ _ h _ => h, fun _ _ _ h => h, fun _ _ h => h,
      fun _ _ h _ => h, fun _ h => h, fun x _ => ?_, fun _ _ => rfl, fun _ h => h, fun h => .inl h, fun _ h => h, rfl⟩
    simp only [g.last]

/-! ## Waking -/

/-- What waking leaves as it is. -/
structure Same (s s' : State) : Prop where
  strong : s'.strong = s.strong
  offer : s'.offer = s.offer
  mem : s'.mem = s.mem
  pc : s'.pc = s.pc
  own : s'.own = s.own
  wq : s'.wq = s.wq
  held : s'.held = s.held
  lview : s'.lview = s.lview
  calls : s'.calls = s.calls
  thr : s'.thr = s.thr
  val : s'.val = s.val
  ep : s'.ep = s.ep
  alive : s'.alive = s.alive
  pub : s'.pub = s.pub
  back : s'.back = s.back
  left : s'.left = s.left
  broken : s'.broken = s.broken

theorem Same.refl (s : State) : Same s s := ⟨rfl, rfl, rfl, rfl, rfl, rfl, rfl, rfl, rfl, rfl, rfl, rfl, rfl, rfl, rfl, rfl, rfl⟩

theorem Same.trans {s s1 s2 : State} (a : Same s s1) (b : Same s1 s2) : Same s s2 :=
  ⟨b.strong.trans a.strong, b.offer.trans a.offer, b.mem.trans a.mem, b.pc.trans a.pc, b.own.trans a.own, b.wq.trans a.wq, b.held.trans a.held,
   b.lview.trans a.lview, b.calls.trans a.calls, b.thr.trans a.thr, b.val.trans a.val, b.ep.trans a.ep, b.alive.trans a.alive, b.pub.trans a.pub,
   b.back.trans a.back, b.left.trans a.left, b.broken.trans a.broken⟩

theorem wake_same (s : State) (w u e : Nat) : Same s (wake s w u e) := by
  unfold wake
  split
  · exact ⟨rfl, rfl, rfl, rfl, rfl, rfl, rfl, rfl, rfl, rfl, rfl, rfl, rfl, rfl, rfl, rfl, rfl⟩
  · exact Same.refl s

theorem wake_mono (s : State) (w u e k : Nat) : s.epoch k ≤ (wake s w u e).epoch k := by
  unfold wake
  split
  · rename_i h
    simp only [upd_apply]
    split
    · rename_i hk; subst hk; omega
    · exact Nat.le_refl _
  · exact Nat.le_refl _

theorem wake_lt (s : State) (w u e : Nat) (h : e ≤ s.epoch u) : e < (wake s w u e).epoch u := by
  unfold wake
  split
  · simp only [upd_same]; omega
  · omega

/-- Waking `u`, if it is all right for `u`. -/
theorem Inv.wakeOf {s : State} {tr : List Obs} {w u : Nat} (h : Inv s tr)
    (hq : (s.pc u).queue?.isSome = true ∨ ∃ c, (s.pc u = .pNotify c ∨ s.pc u = .pWait c) ∧ s.epoch u = s.ep c ∧ Done s tr (s.mem.cur w) c) :
    Inv { s with epoch := upd s.epoch u (s.epoch u + 1), ready := upd s.ready u true, mail := upd s.mail u (join (s.mail u) (s.mem.cur w)) } tr := by
  have G := h.glob
  refine ⟨⟨G.slot, G.flag, G.flagVal, G.refs, G.top, G.pub, G.live, G.ok, G.own, G.left, G.fin⟩, fun k => ?_⟩
  by_cases hk : k = u
  · subst hk
    have A := h.at_ k
    refine ⟨A.alive, A.held, ?_, ?_, ?_, A.call, A.pre, ?_, ?_, ?_, A.ref, A.took, A.gift, A.offer, A.closing, A.emptied, A.checked⟩
    · intro q e he
      simp only [upd_same]
      have := (A.ent q e he).1
      exact ⟨by omega, fun h => by omega⟩
    · intro q _ hr; simp only [upd_same] at hr; cases hr
    · intro _
      simp only [upd_same]
      rcases hq with h1 | ⟨c, h1, h2, _⟩
      · exact .inl h1
      · exact .inr ⟨c, h1, by rw [h2]⟩
    · intro c hc
      rcases hq with h1 | ⟨c', h1, _, _⟩
      · rcases hc with hc | hc <;> simp only at hc <;> rw [hc] at h1 <;> cases h1
      · rcases hc with hc | hc <;> simp only at hc <;> rw [hc] at h1 <;> rcases h1 with h1 | h1 <;> cases h1
    · intro c hc
      rcases hq with h1 | ⟨c', h1, h2, h3⟩
      · rcases hc with hc | hc <;> simp only at hc <;> rw [hc] at h1 <;> cases h1
      · have : c' = c := by
          rcases hc with hc | hc <;> simp only at hc <;> rw [hc] at h1 <;> rcases h1 with h1 | h1 <;> cases h1 <;> rfl
        subst this
        simp only [upd_same]
        refine .inr ⟨by rw [h2], ?_⟩
        rcases h3 with h3 | ⟨h3, h4, h5⟩
        · exact .inl (Nat.le_trans h3 (le_join_right _ _ 1))
        · exact .inr ⟨h3, h4, fun y hy => ⟨(h5 y hy).1, Nat.le_trans (h5 y hy).2 (le_join_right _ _ _)⟩⟩
    · intro c hc
      rcases hq with h1 | ⟨c', h1, h2, h3⟩
      · simp only at hc; rw [hc] at h1; cases h1
      · simp only at hc; rw [hc] at h1; rcases h1 with h1 | h1 <;> cases h1
  · refine (h.at_ k).frame (w := k) G ⟨fun _ => Nat.le_refl _, ?_, ?_, ?_, fun _ _ => Iff.rfl, fun _ => Iff.rfl, Nat.le_refl _, fun _ _ => rfl, fun _ _ => rfl,
      fun _ _ _ => rfl, fun _ _ _ => rfl, fun c h ha => ⟨h, G.live c ha⟩, fun _ _ h => h, fun _ h => h, fun _ _ _ => rfl, fun _ _ h _ => h, fun _ _ _ h => h, fun _ _ h => h,
      fun _ _ h _ => h, fun _ h => h, fun x _ => rfl, fun _ _ => rfl, fun _ h => h, fun h => .inl h, fun _ h => h, rfl⟩
    · simp only [upd_other _ _ hk]
    · simp only [upd_other _ _ hk]
    · simp only [upd_other _ _ hk]

theorem Inv.wakeQ {s : State} {tr : List Obs} {w u e : Nat} {q : Q} (h : Inv s tr) (hm : (u, e) ∈ s.wq q) : Inv (wake s w u e) tr := by
  unfold wake
  split
  · rename_i he
    have := (h.at_ u).ent q e hm
    have h1 := (this.2 he.symm).1
    have h2 := h.wakeOf (w := w) (u := u) (.inl (by rw [h1]; rfl))
    rw [he] at h2
    exact h2
  · exact h

theorem Inv.wakeSlot {s : State} {tr : List Obs} {w c : Nat} (h : Inv s tr) (ha : s.alive c = true) (hp : s.pub c = true)
    (hd : Done s tr (s.mem.cur w) c) : Inv (wake s w (s.thr c) (s.ep c)) tr := by
  unfold wake
  split
  · rename_i he
    have A := h.at_ (s.thr c)
    have h1 := A.alive c ha rfl
    have h2 := h.wakeOf (w := w) (u := s.thr c) (.inr ⟨c, by
      have hpre : (s.pc (s.thr c)).pre? ≠ some c := fun h => by rw [(A.pre c h).1] at hp; cases hp
      have haf : s.pc (s.thr c) ≠ .pAfter c := fun h => by have := (A.after c h).1; omega
      generalize s.pc (s.thr c) = p at h1 hpre haf
      cases p <;> simp only [Pc.push?, Option.some.injEq, reduceCtorEq] at h1 <;> subst h1 <;> simp_all [Pc.pre?], he, hd⟩)
    rw [he] at h2
    exact h2
  · exact h

theorem notifyOne_ok {tr : List Obs} {w : Nat} {q : Q} (l : List (Nat × Nat)) : ∀ {s : State}, Inv s tr → (∀ k, k ∈ l → k ∈ s.wq q) →
    Inv (notifyOne s w l).1 tr ∧ Same s (notifyOne s w l).1 ∧ (∀ k, k ∈ (notifyOne s w l).2 → k ∈ l) ∧
      ∀ u e, (u, e) ∈ l → (u, e) ∈ (notifyOne s w l).2 ∨ e < (notifyOne s w l).1.epoch u := by
  induction l with
  | nil => intro s h hl; exact ⟨h, Same.refl s, fun _ h => h, fun _ _ h => by cases h⟩
  | cons k l ih =>
    intro s h hl
    obtain ⟨u, e⟩ := k
    have hm := hl _ List.mem_cons_self
    have hle := ((h.at_ u).ent q e hm).1
    simp only [notifyOne]
    split
    · rename_i he
      refine ⟨h.wakeQ hm, wake_same s w u e, fun _ h => List.mem_cons_of_mem _ h, fun u' e' h' => ?_⟩
      rcases List.mem_cons.1 h' with h1 | h1
      · cases h1; exact .inr (wake_lt s w u e hle)
      · exact .inl h1
    · rename_i he
      obtain ⟨h1, h2, h3, h4⟩ := ih h fun k hk => hl k (List.mem_cons_of_mem _ hk)
      refine ⟨h1, h2, fun k hk => List.mem_cons_of_mem _ (h3 k hk), fun u' e' h' => ?_⟩
      rcases List.mem_cons.1 h' with h5 | h5
      · cases h5
        right
        have : ∀ (l : List (Nat × Nat)) (s : State), s.epoch u ≤ (notifyOne s w l).1.epoch u := by
          intro l
          induction l with
          | nil => intro s; exact Nat.le_refl _
          | cons k l ih =>
            intro s
            obtain ⟨a, b⟩ := k
            simp only [notifyOne]
            split
            · exact wake_mono ..
            · exact ih s
        have := this l s
        omega
      · exact h4 u' e' h5

theorem notifyAll_mono (w u : Nat) (l : List (Nat × Nat)) : ∀ s : State, s.epoch u ≤ (notifyAll s w l).epoch u := by
  induction l with
  | nil => intro s; exact Nat.le_refl _
  | cons k l ih => intro s; exact Nat.le_trans (wake_mono s w k.1 k.2 u) (ih _)

theorem notifyAll_ok {tr : List Obs} {w : Nat} {q : Q} (l : List (Nat × Nat)) : ∀ {s : State}, Inv s tr → (∀ k, k ∈ l → k ∈ s.wq q) →
    Inv (notifyAll s w l) tr ∧ Same s (notifyAll s w l) ∧ ∀ u e, (u, e) ∈ l → e < (notifyAll s w l).epoch u := by
  induction l with
  | nil => intro s h hl; exact ⟨h, Same.refl s, fun _ _ h => by cases h⟩
  | cons k l ih =>
    intro s h hl
    obtain ⟨u, e⟩ := k
    have hm := hl _ List.mem_cons_self
    have hle := ((h.at_ u).ent q e hm).1
    have hs := wake_same s w u e
    obtain ⟨h1, h2, h3⟩ := ih (s := wake s w u e) (h.wakeQ hm) fun k hk => by rw [hs.wq]; exact hl k (List.mem_cons_of_mem _ hk)
    refine ⟨h1, hs.trans h2, fun u' e' h' => ?_⟩
    rcases List.mem_cons.1 h' with h5 | h5
    · cases h5
      exact Nat.lt_of_lt_of_le (wake_lt s w u e hle) (notifyAll_mono w u l _)
    · exact h3 u' e' h5

/-- Waiters whose wakers are outdated are removed. -/
theorem Inv.drop {s : State} {tr : List Obs} {q : Q} {l : List (Nat × Nat)} (h : Inv s tr) (hs : ∀ k, k ∈ l → k ∈ s.wq q)
    (hd : ∀ u e, (u, e) ∈ s.wq q → (u, e) ∈ l ∨ e < s.epoch u) : Inv { s with wq := fun p => if p = q then l else s.wq p } tr := by
  have G := h.glob
  have sub : ∀ p k, k ∈ (if p = q then l else s.wq p) → k ∈ s.wq p := by
    intro p k hk
    split at hk
    · rename_i hp; subst hp; exact hs k hk
    · exact hk
  have nil : ∀ p, s.wq p = [] → (if p = q then l else s.wq p) = [] := by
    intro p hp
    cases hx : (if p = q then l else s.wq p) with
    | nil => rfl
    | cons a b => have := sub p a (by rw [hx]; exact List.mem_cons_self); rw [hp] at this; cases this
  refine ⟨⟨G.slot, G.flag, G.flagVal, G.refs, G.top, G.pub, G.live, G.ok, G.own, G.left, fun hf p => ?_⟩, fun u => ?_⟩
  · obtain ⟨h1, h2, h3⟩ := G.fin hf p
    exact ⟨nil p h1, h2, h3⟩
  · have A := h.at_ u
    refine ⟨A.alive, A.held, fun p e he => A.ent p e (sub p _ he), fun p hp hr => ?_, A.ready, A.call, A.pre, A.tries, A.wait, A.after, A.ref, A.took, A.gift, A.offer, A.closing,
      fun z hz => nil _ (A.emptied z hz), A.checked⟩
    have h1 := A.queued p hp hr
    simp only
    split
    · rename_i hpq; subst hpq
      rcases hd u _ h1 with h2 | h2
      · exact h2
      · omega
    · exact h1

/-- Releasing a spinlock passes on the view. -/
theorem Inv.leave {s : State} {tr : List Obs} (h : Inv s tr) (w : Nat) (q : Q) : Inv (leave s w q) tr := by
  have G := h.glob
  have le : ∀ p y, s.lview p y ≤ (WeakUnbuf.leave s w q).lview p y := by
    intro p y
    simp only [WeakUnbuf.leave]
    split
    · exact le_join_left _ _ y
    · exact Nat.le_refl _
  refine ⟨⟨G.slot, G.flag, G.flagVal, G.refs, G.top, G.pub, G.live, G.ok, G.own, fun z hz => ⟨(G.left z hz).1, ?_⟩, fun hf p => ?_⟩, fun u => ?_⟩
  · have hz := (G.left z hz).2
    unfold LeftOk at hz ⊢
    have e1 : (WeakUnbuf.leave s w q).offer = s.offer := rfl
    rw [e1]
    split <;> rename_i ho <;> rw [ho] at hz <;> simp only at hz
    · exact hz
    · exact ⟨Nat.le_trans hz.1 (le _ _), hz.2⟩
  · obtain ⟨h1, h2, h3⟩ := G.fin hf p
    exact ⟨h1, Nat.le_trans h2 (le _ _), h3⟩
  · have A := h.at_ u
    exact ⟨A.alive, A.held, A.ent, A.queued, A.ready, A.call, A.pre, A.tries, A.wait, A.after, A.ref, A.took, A.gift, A.offer, A.closing, A.emptied, A.checked⟩

end Verif.WeakUnbuf
