import Verif.WeakUnbufStep

/-! # Steps of the unbuffered channel under weak memory, continued -/

namespace Verif.WeakUnbuf

open Weak

/-- Proves the parts of `Fr` that are immediate. -/
macro "fr_base" : tactic => `(tactic| (constructor <;> first
  | exact fun _ => Nat.le_refl _
  | exact Nat.le_refl _
  | exact rfl
  | exact fun _ => Iff.rfl
  | exact fun _ _ => Iff.rfl
  | exact fun _ _ => rfl
  | exact fun _ _ _ => rfl
  | exact fun c h ha => ⟨h, Glob.live ‹_› c ha⟩
  | exact fun _ h => h
  | exact fun _ h _ => h
  | exact fun _ _ h => h
  | exact fun _ _ h _ => h
  | exact fun _ _ _ h => h
  | exact fun h => Or.inl h
  | skip))

/-- A fiber that neither waits before nor after goes on, maybe with other spinlocks. -/
theorem At.moveL {s : State} {tr : List Obs} {w : Nat} {p p' : Pc} {H : Q → Option Nat} (h : At s tr w p)
    (hheld : ∀ q, H q = some w ↔ p'.holds q = true) (hpush : p'.push? = p.push?)
    (hq : p.queue? = none) (hw : ∀ c, p ≠ .pNotify c ∧ p ≠ .pWait c) (hq' : p'.queue? = none)
    (hw' : ∀ c, p' ≠ .pNotify c ∧ p' ≠ .pWait c ∧ p' ≠ .pAfter c) (hpre : ∀ c, p'.pre? = some c → p.pre? = some c)
    (htry : ∀ c, p' = .pTry c ∨ p' = .pCas c → p = .pTry c ∨ p = .pCas c) (href : ∀ c, p'.ref? = some c → s.pub c = true)
    (htook : p'.took? = none ∨ p'.took? = p.took?) (hgift : ∀ y, p'.gift? s.offer = some y → s.own y = .fiber w)
    (hoff : ∀ z, p' = .cStart (some z) → s.offer ≠ .nothing) (hcl : p'.closing = true → 1 ≤ s.mem.cur w 1)
    (hem : ∀ z, p' = .cCons z → s.wq .prod = []) (hch : p'.checked = true → ¬ Fin tr) :
    At { s with held := H } tr w p' where
  alive := fun c ha ht => by rw [hpush]; exact h.alive c ha ht
  held := hheld
  ent := fun q e he => by
    refine ⟨(h.ent q e he).1, fun h1 => ?_⟩
    have := ((h.ent q e he).2 h1).1
    rw [hq] at this; cases this
  queued := fun q h1 => by rw [hq'] at h1; cases h1
  ready := fun hr => by
    rcases h.ready hr with h1 | ⟨c, h1, _⟩
    · rw [hq] at h1; cases h1
    · rcases h1 with h1 | h1
      · exact absurd h1 (hw c).1
      · exact absurd h1 (hw c).2
  call := fun c hc => h.call c (by rw [← hpush]; exact hc)
  pre := fun c hc => h.pre c (hpre c hc)
  tries := fun c hc => h.tries c (htry c hc)
  wait := fun c hc => by
    rcases hc with h1 | h1
    · exact absurd h1 (hw' c).1
    · exact absurd h1 (hw' c).2.1
  after := fun c hc => absurd hc (hw' c).2.2
  ref := href
  took := fun c hc => by
    rcases htook with h1 | h1
    · rw [h1] at hc; cases hc
    · rw [h1] at hc; exact h.took c hc
  gift := hgift
  offer := hoff
  closing := hcl
  emptied := hem
  checked := hch

theorem Inv.at' {s : State} {tr : List Obs} {w : Nat} {p : Pc} (h : Inv s tr) (hp : s.pc w = p) : At s tr w p := hp ▸ h.at_ w

/-- Discharges what is immediate in `At.moveL`. -/
macro "mv_base" : tactic => `(tactic| all_goals first
  | exact rfl
  | (intro _; refine ⟨?_, ?_⟩ <;> (intro h; cases h) <;> done)
  | (intro _; refine ⟨?_, ?_, ?_⟩ <;> (intro h; cases h) <;> done)
  | exact fun _ h => h
  | exact .inl rfl
  | exact .inr rfl
  | (intro _ h; cases h; done)
  | (intro h; cases h; done)
  | (intro _ h; rcases h with h | h <;> cases h; done)
  | skip)

/-- A fiber acquires the spinlock of `q` and goes on. -/
theorem Inv.take {s : State} {tr : List Obs} {w : Nat} {q : Q} {p : Pc} (h : Inv s tr) (hn : s.held q = none)
    (hv : ∀ y, s.lview q y ≤ s.mem.cur w y) (ha : At { s with held := fun r => if r = q then some w else s.held r } tr w p) :
    Inv { s with pc := upd s.pc w p, held := fun r => if r = q then some w else s.held r } tr := by
  have G := h.glob
  have hh : ∀ r u, (if r = q then some w else s.held r) = some u → (r = q ∧ u = w) ∨ s.held r = some u := by
    intro r u hr
    split at hr
    · rename_i hrq; exact .inl ⟨hrq, (Option.some.inj hr).symm⟩
    · exact .inr hr
  have h1 : Inv { s with held := fun r => if r = q then some w else s.held r, pc := upd s.pc w p } tr := by
    refine h.next (w := w) ⟨G.slot, G.flag, G.flagVal, G.refs, G.top, G.pub, G.live, G.ok, G.own, fun z hz => ⟨(G.left z hz).1, ?_⟩, fun hf r => ?_⟩ ?_ ?_
    · have hZ := (G.left z hz).2
      unfold LeftOk at hZ ⊢
      simp only
      split <;> rename_i ho <;> rw [ho] at hZ <;> simp only at hZ
      · exact hZ
      · refine ⟨hZ.1, fun u hu => ?_⟩
        rcases hh _ u hu with ⟨e1, e2⟩ | h1
        · subst e1; subst e2; exact Nat.le_trans hZ.1 (hv _)
        · exact hZ.2 u h1
    · obtain ⟨h1, h2, h3⟩ := G.fin hf r
      refine ⟨h1, h2, fun u hu => ?_⟩
      rcases hh _ u hu with ⟨e1, e2⟩ | h4
      · subst e1; subst e2; exact Nat.le_trans h2 (hv _)
      · exact h3 u h4
    · simp only [upd_same]
      exact ⟨ha.alive, ha.held, ha.ent, ha.queued, ha.ready, ha.call, ha.pre, ha.tries, ha.wait, ha.after, ha.ref, ha.took, ha.gift, ha.offer, ha.closing, ha.emptied, ha.checked⟩
    · intro u hu
      refine ⟨by simp only [upd_other _ _ hu], ?_⟩
      fr_base
      · intro r
        refine ⟨fun h => ?_, fun h => ?_⟩
        · rcases hh r u h with ⟨_, e2⟩ | h
          · exact absurd e2 hu
          · exact h
        · simp only
          split
          · rename_i hr; rw [hr, hn] at h; cases h
          · exact h
  exact h1

/-- A fiber releases the spinlock of `q` and goes on. -/
theorem Inv.release {s : State} {tr : List Obs} {w : Nat} {q : Q} {p : Pc} (h : Inv s tr) (hn : s.held q = some w)
    (ha : At { s with held := fun r => if r = q then none else s.held r } tr w p) :
    Inv { s with pc := upd s.pc w p, held := fun r => if r = q then none else s.held r } tr := by
  have G := h.glob
  have hh : ∀ r u, (if r = q then none else s.held r) = some u → s.held r = some u := by
    intro r u hr
    split at hr
    · cases hr
    · exact hr
  refine h.next (w := w) ⟨G.slot, G.flag, G.flagVal, G.refs, G.top, G.pub, G.live, G.ok, G.own, fun z hz => ⟨(G.left z hz).1, ?_⟩, fun hf r => ?_⟩ ?_ ?_
  · have hz := (G.left z hz).2
    unfold LeftOk at hz ⊢
    simp only
    split <;> rename_i ho <;> rw [ho] at hz <;> simp only at hz
    · exact hz
    · exact ⟨hz.1, fun u hu => hz.2 u (hh _ u hu)⟩
  · obtain ⟨h1, h2, h3⟩ := G.fin hf r
    exact ⟨h1, h2, fun u hu => h3 u (hh _ u hu)⟩
  · simp only [upd_same]
    exact ⟨ha.alive, ha.held, ha.ent, ha.queued, ha.ready, ha.call, ha.pre, ha.tries, ha.wait, ha.after, ha.ref, ha.took, ha.gift, ha.offer, ha.closing, ha.emptied, ha.checked⟩
  · intro u hu
    refine ⟨by simp only [upd_other _ _ hu], ?_⟩
    fr_base
    · intro r
      refine ⟨fun h => hh r u h, fun h => ?_⟩
      simp only
      split
      · rename_i hr; rw [hr, hn] at h; exact absurd (Option.some.inj h).symm hu
      · exact h

/-- The spinlocks that are held do not matter to the rest. -/
theorem At.relock {s : State} {tr : List Obs} {w : Nat} {p : Pc} {H : Q → Option Nat} (h : At s tr w p) (hh : ∀ q, H q = some w ↔ p.holds q = true) :
    At { s with held := H } tr w p :=
  ⟨h.alive, hh, h.ent, h.queued, h.ready, h.call, h.pre, h.tries, h.wait, h.after, h.ref, h.took, h.gift, h.offer, h.closing, h.emptied, h.checked⟩

/-- The part of `At` that does not mention spinlocks. -/
theorem At.unlocked {s : State} {tr : List Obs} {w : Nat} {p : Pc} {H : Q → Option Nat} (h : At { s with held := H } tr w p) (hh : ∀ q, s.held q = some w ↔ p.holds q = true) :
    At s tr w p :=
  ⟨h.alive, hh, h.ent, h.queued, h.ready, h.call, h.pre, h.tries, h.wait, h.after, h.ref, h.took, h.gift, h.offer, h.closing, h.emptied, h.checked⟩

/-- A call that returns `closed` gets what `close` left. -/
theorem Inv.claim {s : State} {tr : List Obs} {w : Nat} (h : Inv s tr)
    (hz : ∀ z, s.left = some z → s.mem.last (z + 2) ≤ s.mem.cur w (z + 2)) :
    Inv (claim s w) tr := by
  unfold WeakUnbuf.claim
  split
  · exact h
  · rename_i z hl
    have G := h.glob
    have ho := (G.left z hl).1
    refine ⟨⟨G.slot, G.flag, G.flagVal, G.refs, ?_, G.pub, G.live, G.ok, ?_, fun z hz => (by cases hz), G.fin⟩, fun u => ?_⟩
    · intro t g c h1 h2 h3
      obtain ⟨h4, h5⟩ := G.top t g c h1 h2 h3
      refine ⟨?_, h5⟩
      simp only
      rw [upd_other _ _ (fun e => by rw [e, ho] at h4; cases h4)]
      exact h4
    · intro x v hx
      simp only [upd_apply] at hx
      split at hx
      · rename_i e
        simp only [Place.fiber.injEq] at hx
        subst hx; subst e
        exact hz x hl
      · exact G.own x v hx
    · refine (h.at_ u).frame (w := u) G ?_
      have key : ∀ x P, s.own x = P → P ≠ .left → upd s.own z (.fiber w) x = P := by
        intro x P hx hP
        rw [upd_other _ _ (fun e => hP (by rw [← hx, e]; exact ho))]
        exact hx
      fr_base
      · exact fun x c hx _ => key x _ hx (by intro h; cases h)
      · intro x c _ hx
        simp only [upd_apply] at hx
        split at hx
        · cases hx
        · exact hx
      · exact fun x c hx => key x _ hx (by intro h; cases h)
      · exact fun x c hx _ => key x _ hx (by intro h; cases h)
      · exact fun x hx => key x _ hx (by intro h; cases h)

end Verif.WeakUnbuf
