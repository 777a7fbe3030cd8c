import Verif.WeakUnbufSlot

/-! # Every step of the unbuffered channel keeps the invariant -/

namespace Verif.WeakUnbuf

open Weak

theorem At.waits {s : State} {tr : List Obs} {w c : Nat} (A : At s tr w (.pNotify c)) : At s tr w (.pWait c) := by
  refine ⟨A.alive, fun q => ?_, ?_, (by intro q h; cases h), ?_, A.call, (by intro q h; cases h), ?_, ?_, ?_, A.ref, (by intro q h; cases h),
      (by intro q h; cases h), (by intro q h; cases h), (by intro h; cases h), (by intro q h; cases h), (by intro h; cases h)⟩
  · rw [A.held q]; cases q <;> exact Iff.rfl
  · intro q e he
    have := stale A (.inl rfl) he
    exact ⟨Nat.le_of_lt this, fun h => by omega⟩
  · intro hr
    rcases A.ready hr with h1 | ⟨d, h1, h2⟩
    · cases h1
    · rcases h1 with h1 | h1 <;> cases h1
      exact .inr ⟨_, .inr rfl, h2⟩
  · intro d hd; rcases hd with hd | hd <;> cases hd
  · intro d hd
    rcases hd with hd | hd <;> cases hd
    exact A.wait _ (.inl rfl)
  · intro d hd; cases hd

/-- Notify one of those who wait in the queue of `q`, and go on at `p`. -/
theorem Inv.one {s : State} {tr : List Obs} {w : Nat} {q : Q} {p : Pc} (h : Inv s tr)
    (hp : ∀ s', Same (enter s w q) s' → At { s' with wq := fun r => if r = q then (notifyOne (enter s w q) w ((enter s w q).wq q)).2 else s'.wq r } tr w (s.pc w) →
      At { s' with wq := fun r => if r = q then (notifyOne (enter s w q) w ((enter s w q).wq q)).2 else s'.wq r } tr w p) :
    Inv (WeakUnbuf.leave { (notifyOne (enter s w q) w ((enter s w q).wq q)).1 with
      wq := fun r => if r = q then (notifyOne (enter s w q) w ((enter s w q).wq q)).2 else (notifyOne (enter s w q) w ((enter s w q).wq q)).1.wq r,
      pc := upd (notifyOne (enter s w q) w ((enter s w q).wq q)).1.pc w p } w q) tr := by
  have h1 : Inv (enter s w q) tr := h.grow (grow_learn s.mem w (s.lview q))
  obtain ⟨h2, h3, h4, h5⟩ := notifyOne_ok (w := w) (q := q) ((enter s w q).wq q) h1 (fun _ h => h)
  have h6 := h2.drop (q := q) (l := (notifyOne (enter s w q) w ((enter s w q).wq q)).2) (fun k hk => by rw [h3.wq]; exact h4 k hk)
    (fun u e he => by rw [h3.wq] at he; exact h5 u e he)
  exact (h6.goto (hp _ h3 (h6.at' (congrFun h3.pc w)))).leave w q

theorem Inv.all {s : State} {tr : List Obs} {w : Nat} {q : Q} (h : Inv s tr) :
    Inv { notifyAll (enter s w q) w ((enter s w q).wq q) with wq := fun r => if r = q then [] else (notifyAll (enter s w q) w ((enter s w q).wq q)).wq r } tr ∧
      Same (enter s w q) (notifyAll (enter s w q) w ((enter s w q).wq q)) := by
  have h1 : Inv (enter s w q) tr := h.grow (grow_learn s.mem w (s.lview q))
  obtain ⟨h2, h3, h4⟩ := notifyAll_ok (w := w) (q := q) ((enter s w q).wq q) h1 (fun _ h => h)
  refine ⟨h2.drop (q := q) (l := []) (fun k hk => by cases hk) (fun u e he => .inr ?_), h3⟩
  rw [h3.wq] at he
  exact h4 u e he

/-- `closed_` was read as set. -/
theorem flag_set {s : State} {tr : List Obs} (G : Glob s tr) {w t v : Nat} {m : Mem} {g : Msg} (L : Loaded s.mem w 1 t true v m g) (hv : v ≠ 0) : 1 ≤ t := by
  rcases Nat.eq_zero_or_pos t with h | h
  · exact absurd (L.val.trans ((G.flagVal t g L.read).2 h)) hv
  · exact h

theorem flag_clear {s : State} {tr : List Obs} (G : Glob s tr) {w t v : Nat} {m : Mem} {g : Msg} (L : Loaded s.mem w 1 t true v m g) (hv : v = 0) : s.mem.cur w 1 = 0 := by
  have := (G.flagVal t g L.read).1 (by rw [← L.val]; exact hv)
  have h2 := L.old
  omega

theorem Inv.pushClosed {s : State} {tr : List Obs} {w c : Nat} (h : Inv s tr) (hp : (s.pc w).push? = some c)
    (hh : ∀ q, (s.pc w).holds q = false) (hq : (s.pc w).queue? = none) (hw : ∀ c, s.pc w ≠ .pNotify c ∧ s.pc w ≠ .pWait c)
    (hz : s.offer = .early → ∀ z, s.left = some z → s.mem.last (z + 2) ≤ s.mem.cur w (z + 2)) :
    Inv (WeakUnbuf.pushClosed s w c).1 (tr ++ (WeakUnbuf.pushClosed s w c).2) := by
  refine Inv.quiet ?_ (by simp [WeakUnbuf.pushClosed])
  have h1 : Inv { s with pc := upd s.pc w .idle, alive := upd s.alive c false, own := s.own } tr :=
    h.ret hp hh hq hw (fun _ => .inl rfl)
  simp only [WeakUnbuf.pushClosed]
  split
  · rename_i ho
    exact h1.claim (hz ho)
  · exact h1

/-- What was left early is visible to those who have seen `closed_` set. -/
theorem early_seen {s : State} {tr : List Obs} (G : Glob s tr) {w t v : Nat} {m : Mem} {g : Msg} (L : Loaded s.mem w 1 t true v m g) (hv : v ≠ 0)
    (ho : s.offer = .early) {z : Nat} (hz : s.left = some z) : m.last (z + 2) ≤ m.cur w (z + 2) := by
  have h1 := (G.left z hz).2
  unfold LeftOk at h1
  rw [ho] at h1
  simp only at h1
  rw [L.last]
  exact Nat.le_trans (h1.2 t g (flag_set G L hv) L.read) (L.gain rfl _)

theorem held_none {s : State} {tr : List Obs} {w : Nat} {p p' : Pc} (A : At s tr w p) (q : Q) (h : ∀ r, p'.holds r = (p.holds r && decide (r ≠ q))) :
    ∀ r, (if r = q then none else s.held r) = some w ↔ p'.holds r = true := by
  intro r
  rw [h r]
  by_cases hr : r = q
  · simp [hr]
  · simp [hr, A.held r]

theorem held_some {s : State} {tr : List Obs} {w : Nat} {p p' : Pc} (A : At s tr w p) (q : Q) (h : ∀ r, p'.holds r = (p.holds r || decide (r = q))) :
    ∀ r, (if r = q then some w else s.held r) = some w ↔ p'.holds r = true := by
  intro r
  rw [h r]
  by_cases hr : r = q
  · simp [hr]
  · simp [hr, A.held r]

/-- Discharges that a fiber holds the same spinlocks as before. -/
macro "same_locks" A:term : tactic => `(tactic| (intro q; refine (($A).held q).trans ?_; cases q <;> exact Iff.rfl))

theorem go_inv {s s' : State} {tr o : List Obs} {w t : Nat} (h : Inv s tr) (hs : go s w t = some (s', o)) : Inv s' (tr ++ o) := by
  have G := h.glob
  have A := h.at_ w
  unfold go at hs
  split at hs <;> rename_i hp <;> rw [hp] at A
  · cases hs
  · -- pStart
    rename_i c
    split at hs
    · cases hs
    · rename_i v m hl
      obtain ⟨g, L⟩ := load_spec hl
      have h1 := h.grow (grow_of_load L)
      split at hs <;> cases hs
      · rw [List.append_nil]; exact h1.open_ hp
      · rename_i hv
        exact h1.pushClosed (by simp only [hp]; rfl) (fun q => by simp only [hp]; cases q <;> rfl) (by simp only [hp]; rfl)
          (fun _ => by simp only [hp]; exact ⟨nofun, nofun⟩) (fun ho z hz => early_seen G L hv ho hz)
  · -- pTry
    rename_i c
    split at hs
    · cases hs
    · rename_i v m hl
      obtain ⟨g, L⟩ := load_spec hl
      have h1 := h.grow (grow_of_load L)
      have A1 := h1.at' hp
      cases hs
      rw [List.append_nil]
      refine h1.goto ?_
      split
      · refine A1.moveL (H := s.held) ?_ ?_ ?_ ?_ ?_ ?_ ?_ ?_ ?_ ?_ ?_ ?_ ?_ ?_ ?_
        mv_base
        · same_locks A
        · intro d hd; rcases hd with hd | hd <;> cases hd; exact .inl rfl
      · refine A1.moveL (H := s.held) ?_ ?_ ?_ ?_ ?_ ?_ ?_ ?_ ?_ ?_ ?_ ?_ ?_ ?_ ?_
        mv_base
        · same_locks A
  · -- pCas
    rename_i c
    split at hs
    · cases hs
    · rename_i b v m hl
      rcases cas_spec hl with ⟨rfl, _, g, M⟩ | ⟨rfl, _, g, L⟩
      · simp only [if_true] at hs; cases hs
        rw [List.append_nil]; exact h.put hp M
      · simp only [Bool.false_eq_true, if_false] at hs; cases hs
        rw [List.append_nil]
        have h1 := h.grow (grow_of_load L)
        have A1 := h1.at' hp
        refine h1.goto ?_
        refine A1.moveL (H := s.held) ?_ ?_ ?_ ?_ ?_ ?_ ?_ ?_ ?_ ?_ ?_ ?_ ?_ ?_ ?_
        mv_base
        · same_locks A
        · intro d hd; rcases hd with hd | hd <;> cases hd; exact .inr rfl
  · -- pNotify
    rename_i c
    split at hs
    · cases hs
      rw [List.append_nil]
      refine h.one (q := .cons) (p := .pWait c) (fun s' _ A => ?_)
      rw [hp] at A
      exact A.waits
    · cases hs
  · -- pWait
    rename_i c
    split at hs
    · rename_i hr
      cases hs
      rw [List.append_nil]
      have h1 := h.grow (grow_learn s.mem w (s.mail w))
      exact h1.resumeW hr hp (fun y => learn_get _ _ _ y)
    · cases hs
  · -- pAfter
    rename_i c
    split at hs
    · cases hs
    · rename_i v m hl
      obtain ⟨g, L⟩ := load_spec hl
      have h1 := h.grow (grow_of_load L)
      have e1 : (({ s with mem := m } : State).pc w).push? = some c := by simp only [hp]; rfl
      have e2 : ∀ q, (({ s with mem := m } : State).pc w).holds q = false := fun q => by simp only [hp]; cases q <;> rfl
      have e3 : (({ s with mem := m } : State).pc w).queue? = none := by simp only [hp]; rfl
      have e4 : ∀ d, ({ s with mem := m } : State).pc w ≠ .pNotify d ∧ ({ s with mem := m } : State).pc w ≠ .pWait d := fun _ => by
        simp only [hp]; exact ⟨nofun, nofun⟩
      split at hs
      · rename_i hv
        rcases (A.after c rfl).2 with h2 | ⟨_, _, h3⟩
        · rw [flag_clear G L hv] at h2; omega
        · split at hs <;> cases hs
          · exact (h1.ret (own' := s.own) e1 e2 e3 e4 (fun _ => .inl rfl)).quiet (by simp)
          · rename_i y hb
            refine (h1.ret e1 e2 e3 e4 (fun x => ?_)).quiet (by simp)
            by_cases hx : x = y
            · subst hx
              refine .inr ⟨(h3 x hb).1, upd_same _ _ _, ?_⟩
              simp only [L.last]
              exact Nat.le_trans (h3 x hb).2 (L.mono _)
            · exact .inl (upd_other _ _ hx)
      · rename_i hv
        cases hs
        exact h1.pushClosed e1 e2 e3 e4 (fun ho z hz => early_seen G L hv ho hz)
  · -- pLock
    rename_i c
    split at hs
    · rename_i hn
      cases hs
      rw [List.append_nil]
      have h1 : Inv (enter s w .prod) tr := h.grow (grow_learn s.mem w (s.lview .prod))
      have A1 : At (enter s w .prod) tr w (.pLock c) := h1.at' hp
      refine h1.take (q := .prod) hn (fun y => learn_get _ _ _ y) ?_
      refine A1.moveL ?_ ?_ ?_ ?_ ?_ ?_ ?_ ?_ ?_ ?_ ?_ ?_ ?_ ?_ ?_
      mv_base
      · exact held_some A1 .prod (fun r => by cases r <;> rfl)
    · cases hs
  · -- pClosed
    rename_i c
    split at hs
    · cases hs
    · rename_i v m hl
      obtain ⟨g, L⟩ := load_spec hl
      have h1 := h.grow (grow_of_load L)
      have A1 := h1.at' hp
      split at hs <;> cases hs
      · rename_i hv
        rw [List.append_nil]
        refine h1.goto ?_
        refine A1.moveL (H := s.held) ?_ ?_ ?_ ?_ ?_ ?_ ?_ ?_ ?_ ?_ ?_ ?_ ?_ ?_ ?_
        mv_base
        · same_locks A
        · intro _ hf
          have h2 := (G.fin hf .prod).2.2 w ((A.held .prod).2 rfl)
          rw [flag_clear G L hv] at h2; omega
      · rename_i hv
        have h2 := h1.release (w := w) (q := .prod) (p := .pStart c) ((A.held .prod).2 rfl) (by
          refine A1.moveL ?_ ?_ ?_ ?_ ?_ ?_ ?_ ?_ ?_ ?_ ?_ ?_ ?_ ?_ ?_
          mv_base
          · exact held_none A1 .prod (fun r => by cases r <;> rfl))
        have h3 := (h2.leave w .prod).pushClosed (w := w) (c := c) (by simp only [WeakUnbuf.leave, upd_same]; rfl)
          (fun q => by simp only [WeakUnbuf.leave, upd_same]; cases q <;> rfl) (by simp only [WeakUnbuf.leave, upd_same]; rfl)
          (fun _ => by simp only [WeakUnbuf.leave, upd_same]; exact ⟨nofun, nofun⟩) (fun ho z hz => early_seen G L hv ho hz)
        have e : WeakUnbuf.pushClosed (unlock { s with mem := m } w .prod) w c =
            WeakUnbuf.pushClosed (WeakUnbuf.leave { s with mem := m, pc := upd s.pc w (.pStart c), held := fun r => if r = .prod then none else s.held r } w .prod) w c := by
          simp only [WeakUnbuf.pushClosed, WeakUnbuf.leave, unlock, upd_upd]
        rw [← e] at h3; exact h3
  · -- pEmpty
    rename_i c
    split at hs
    · cases hs
    · rename_i v m hl
      obtain ⟨g, L⟩ := load_spec hl
      have h1 := h.grow (grow_of_load L)
      have A1 := h1.at' hp
      split at hs <;> cases hs <;> rw [List.append_nil]
      · have h2 := h1.release (w := w) (q := .prod) (p := .pStart c) ((A.held .prod).2 rfl) (by
          refine A1.moveL ?_ ?_ ?_ ?_ ?_ ?_ ?_ ?_ ?_ ?_ ?_ ?_ ?_ ?_ ?_
          mv_base
          · exact held_none A1 .prod (fun r => by cases r <;> rfl))
        exact h2.leave w .prod
      · exact h1.enq (.inl ⟨c, hp, rfl, rfl⟩)
  · -- pQueued
    rename_i c
    split at hs
    · rename_i hr
      cases hs
      rw [List.append_nil]
      have h1 := h.grow (grow_learn s.mem w (s.mail w))
      exact h1.resumeQ hr (.inl ⟨c, hp, rfl⟩)
    · cases hs
  · -- oStart
    rename_i y
    split at hs
    · cases hs
    · rename_i v m hl
      obtain ⟨g, L⟩ := load_spec hl
      have h1 := h.grow (grow_of_load L)
      have A1 := h1.at' hp
      cases hs
      rw [List.append_nil]
      refine h1.goto ?_
      split
      · refine A1.moveL (H := s.held) ?_ ?_ ?_ ?_ ?_ ?_ ?_ ?_ ?_ ?_ ?_ ?_ ?_ ?_ ?_
        mv_base
        · same_locks A
        · exact A.gift
      · rename_i hv
        refine A1.moveL (H := s.held) ?_ ?_ ?_ ?_ ?_ ?_ ?_ ?_ ?_ ?_ ?_ ?_ ?_ ?_ ?_
        mv_base
        · same_locks A
        · intro d hd
          cases hd
          exact G.refs t g (v - 1) L.read (by rw [← L.val]; omega)
        · exact A.gift
  · -- oCas
    rename_i y c
    split at hs
    · cases hs
    · rename_i b v m hl
      rcases cas_spec hl with ⟨rfl, hv, g, M⟩ | ⟨rfl, _, g, L⟩
      · simp only [if_true] at hs
        split at hs <;> cases hs <;> rw [List.append_nil]
        · refine h.get hp M hv (upd_same _ _ _) (fun x hx => .inl ⟨nofun, upd_other _ _ hx⟩)
        · rename_i d
          refine h.get hp M hv (upd_same _ _ _) (fun x hx => ?_)
          rw [upd_other _ _ hx]
          by_cases hd : x = d
          · subst hd; exact .inr ⟨rfl, upd_same _ _ _⟩
          · exact .inl ⟨fun e => hd (Option.some.inj e).symm, upd_other _ _ hd⟩
      · simp only [Bool.false_eq_true, if_false] at hs; cases hs
        rw [List.append_nil]
        have h1 := h.grow (grow_of_load L)
        have A1 := h1.at' hp
        refine h1.goto ?_
        refine A1.moveL (H := s.held) ?_ ?_ ?_ ?_ ?_ ?_ ?_ ?_ ?_ ?_ ?_ ?_ ?_ ?_ ?_
        mv_base
        · same_locks A
        · exact A.gift
  · -- oNotify
    rename_i c
    split at hs
    · cases hs
      rw [List.append_nil]
      refine h.one (q := .prod) (p := .oRead c) (fun s' hsame A => ?_)
      rw [hp] at A
      refine A.moveL (H := s'.held) ?_ ?_ ?_ ?_ ?_ ?_ ?_ ?_ ?_ ?_ ?_ ?_ ?_ ?_ ?_
      mv_base
      · same_locks A
      · exact A.ref
    · cases hs
  · -- oRead
    rename_i c
    split at hs <;> cases hs
    · rw [List.append_nil]
      refine h.goto ?_
      refine A.moveL (H := s.held) ?_ ?_ ?_ ?_ ?_ ?_ ?_ ?_ ?_ ?_ ?_ ?_ ?_ ?_ ?_
      mv_base
      · same_locks A
      · exact A.ref
    · exact h.break.quiet (by simp)
  · -- oWake
    rename_i c
    split at hs
    · rename_i ha
      cases hs
      obtain ⟨h1, h2, h3⟩ := A.took c rfl
      have h4 := (h.popped hp).wakeSlot (w := w) (c := c) ha (A.ref c rfl) (.inr ⟨⟨w, s.val c, by simp⟩, by simp, fun y hy => by
        obtain ⟨h5, h6⟩ := h3 ha y hy
        refine ⟨?_, h6⟩
        simp only
        rw [upd_other _ _ (fun e => by rw [e, h1] at h5; cases h5)]; exact h5⟩)
      have e : wake { s with pc := upd s.pc w .idle, own := upd s.own (s.val c) (.fiber w) } w (s.thr c) (s.ep c) =
          { wake s w (s.thr c) (s.ep c) with pc := upd (wake s w (s.thr c) (s.ep c)).pc w .idle,
                                             own := upd (wake s w (s.thr c) (s.ep c)).own (s.val c) (.fiber w) } := by
        unfold wake; simp only; split <;> rfl
      simp only at h4
      rw [e] at h4
      exact h4
    · cases hs
      exact h.break.quiet (by simp)
  · -- oLock
    rename_i y
    split at hs
    · rename_i hn
      cases hs
      rw [List.append_nil]
      have h1 : Inv (enter s w .cons) tr := h.grow (grow_learn s.mem w (s.lview .cons))
      have A1 : At (enter s w .cons) tr w (.oLock y) := h1.at' hp
      refine h1.take (q := .cons) hn (fun y => learn_get _ _ _ y) ?_
      refine A1.moveL ?_ ?_ ?_ ?_ ?_ ?_ ?_ ?_ ?_ ?_ ?_ ?_ ?_ ?_ ?_
      mv_base
      · exact held_some A1 .cons (fun r => by cases r <;> rfl)
      · exact A1.gift
    · cases hs
  · -- oClosed
    rename_i y
    split at hs
    · cases hs
    · rename_i v m hl
      obtain ⟨g, L⟩ := load_spec hl
      have h1 := h.grow (grow_of_load L)
      have A1 := h1.at' hp
      split at hs <;> cases hs
      · rename_i hv
        rw [List.append_nil]
        refine h1.goto ?_
        refine A1.moveL (H := s.held) ?_ ?_ ?_ ?_ ?_ ?_ ?_ ?_ ?_ ?_ ?_ ?_ ?_ ?_ ?_
        mv_base
        · same_locks A
        · exact A.gift
        · intro _ hf
          have h2 := (G.fin hf .cons).2.2 w ((A.held .cons).2 rfl)
          rw [flag_clear G L hv] at h2; omega
      · rename_i hv
        have h2 := h1.release (w := w) (q := .cons) (p := .idle) ((A.held .cons).2 rfl) (by
          refine A1.moveL ?_ ?_ ?_ ?_ ?_ ?_ ?_ ?_ ?_ ?_ ?_ ?_ ?_ ?_ ?_
          mv_base
          · exact held_none A1 .cons (fun r => by cases r <;> rfl))
        refine Inv.quiet ((h2.leave w .cons).claim (w := w) (fun z hz => ?_)) (by simp)
        have h3 := (G.left z hz).2
        simp only [WeakUnbuf.leave]
        cases ho : s.offer with
        | nothing => unfold LeftOk at h3; rw [ho] at h3; exact h3.elim
        | early => exact early_seen G L hv ho hz
        | late =>
          unfold LeftOk at h3; rw [ho] at h3
          rw [L.last]
          exact Nat.le_trans (h3.2 w ((A.held .cons).2 rfl)) (L.mono _)
  · -- oEmpty
    rename_i y
    split at hs
    · cases hs
    · rename_i v m hl
      obtain ⟨g, L⟩ := load_spec hl
      have h1 := h.grow (grow_of_load L)
      have A1 := h1.at' hp
      split at hs <;> cases hs <;> rw [List.append_nil]
      · exact h1.enq (.inr ⟨y, hp, rfl, rfl⟩)
      · have h2 := h1.release (w := w) (q := .cons) (p := .oStart y) ((A.held .cons).2 rfl) (by
          refine A1.moveL ?_ ?_ ?_ ?_ ?_ ?_ ?_ ?_ ?_ ?_ ?_ ?_ ?_ ?_ ?_
          mv_base
          · exact held_none A1 .cons (fun r => by cases r <;> rfl)
          · exact A1.gift)
        exact h2.leave w .cons
  · -- oQueued
    rename_i y
    split at hs
    · rename_i hr
      cases hs
      rw [List.append_nil]
      have h1 := h.grow (grow_learn s.mem w (s.mail w))
      exact h1.resumeQ hr (.inr ⟨y, hp, rfl⟩)
    · cases hs
  · -- cStart
    rename_i z
    split at hs
    · cases hs
    · rename_i v m hl
      obtain ⟨g, M⟩ := rmw_spec hl
      have h1 := h.mark M
      have A1 := h1.at' hp
      split at hs <;> cases hs
      · rename_i hv
        rw [List.append_nil]
        have h2 : Inv { s with mem := m, pc := upd s.pc w (.cLoad z) } tr := by
          refine h1.goto ?_
          refine A1.moveL (H := s.held) ?_ ?_ ?_ ?_ ?_ ?_ ?_ ?_ ?_ ?_ ?_ ?_ ?_ ?_ ?_
          mv_base
          · same_locks A
          · intro y hy
            refine A.gift y ?_
            simp only [Pc.gift?] at hy ⊢
            split at hy
            · exact hy
            · cases hy
          · intro _; exact Nat.le_trans (Nat.le_add_left 1 t) M.new
        unfold closeSet
        simp only
        split
        · rename_i _ x ho
          refine h2.give (w := w) (z := x) (A.gift x rfl) ?_ (by simp only [upd_same]; rfl) (by simp only [upd_same]; rfl)
            (by simp only [upd_same, Pc.gift?, ho]; rfl)
          obtain ⟨n, _, _, hn, _, hm⟩ := M.msg
          have ht : t = 0 := (G.flagVal t g M.read).1 (by rw [← M.val]; exact hv)
          have hm1 : m.msg 1 = upd (s.mem.msg 1) (t + 1) (some n) := by rw [hm, upd_same]
          have hcs := consec (n := n) G.flag (by rw [M.read]; rfl) M.free
          unfold LeftOk
          simp only [ho, hm1, M.last]
          refine ⟨(hcs 1).2 (by omega), fun k gk hk h5 => ?_⟩
          have h6 := (hcs k).1 (by rw [h5]; rfl)
          have h7 : k = t + 1 := by omega
          rw [h7, upd_same] at h5
          cases h5
          exact Nat.le_trans (G.own x w (A.gift x rfl)) (Nat.le_trans (M.mono _) (hn (G.ok ho) _))
        · exact h2
      · refine Inv.quiet ?_ (by simp)
        refine h1.goto ?_
        refine A1.moveL (H := s.held) ?_ ?_ ?_ ?_ ?_ ?_ ?_ ?_ ?_ ?_ ?_ ?_ ?_ ?_ ?_
        mv_base
        · same_locks A
  · -- cLoad
    rename_i z
    split at hs
    · cases hs
    · rename_i v m hl
      obtain ⟨g, L⟩ := load_spec hl
      have h1 := h.grow (grow_of_load L)
      have A1 := h1.at' hp
      cases hs
      rw [List.append_nil]
      refine h1.goto ?_
      split
      · refine A1.moveL (H := s.held) ?_ ?_ ?_ ?_ ?_ ?_ ?_ ?_ ?_ ?_ ?_ ?_ ?_ ?_ ?_
        mv_base
        · same_locks A
        · exact A1.gift
        · exact A1.closing
      · rename_i hv
        refine A1.moveL (H := s.held) ?_ ?_ ?_ ?_ ?_ ?_ ?_ ?_ ?_ ?_ ?_ ?_ ?_ ?_ ?_
        mv_base
        · same_locks A
        · intro d hd
          cases hd
          exact G.refs t g (v - 1) L.read (by rw [← L.val]; omega)
        · exact A1.gift
        · exact A1.closing
  · -- cWake
    rename_i z c
    split at hs
    · rename_i ha
      cases hs
      rw [List.append_nil]
      have h1 : Inv { s with pc := upd s.pc w (.cProd z) } tr := by
        refine h.goto ?_
        refine A.moveL (H := s.held) ?_ ?_ ?_ ?_ ?_ ?_ ?_ ?_ ?_ ?_ ?_ ?_ ?_ ?_ ?_
        mv_base
        · same_locks A
        · exact A.gift
        · exact A.closing
      have h2 := h1.wakeSlot (w := w) (c := c) ha (A.ref c rfl) (.inl (A.closing rfl))
      have e : wake { s with pc := upd s.pc w (.cProd z) } w (s.thr c) (s.ep c) =
          { wake s w (s.thr c) (s.ep c) with pc := upd (wake s w (s.thr c) (s.ep c)).pc w (.cProd z) } := by
        unfold wake; simp only; split <;> rfl
      simp only at h2
      rw [e] at h2
      exact h2
    · cases hs
      exact h.break.quiet (by simp)
  · -- cProd
    rename_i z
    split at hs
    · rename_i hn
      cases hs
      rw [List.append_nil]
      obtain ⟨h1, h2⟩ := h.all (w := w) (q := .prod)
      have A1 := h1.at' ((congrFun h2.pc w).trans hp)
      refine h1.take (q := .prod) ?_ ?_ ?_
      · simp only; rw [h2.held]; exact hn
      · simp only; rw [h2.lview, h2.mem]; exact fun y => learn_get _ _ _ y
      · refine A1.moveL ?_ ?_ ?_ ?_ ?_ ?_ ?_ ?_ ?_ ?_ ?_ ?_ ?_ ?_ ?_
        mv_base
        · exact held_some A1 .prod (fun r => by cases r <;> rfl)
        · exact A1.gift
        · exact A1.closing
        · intro _ _; simp only [if_true]
    · cases hs
  · -- cCons
    rename_i z
    split at hs
    · rename_i hn
      cases hs
      obtain ⟨h1, h2⟩ := h.all (w := w) (q := .cons)
      generalize hS : notifyAll (enter s w .cons) w ((enter s w .cons).wq .cons) = S at h1 h2 ⊢
      have hpc : S.pc w = .cCons z := by rw [h2.pc]; exact hp
      have hcur : 1 ≤ S.mem.cur w 1 := by
        rw [h2.mem]
        exact Nat.le_trans (A.closing rfl) ((grow_learn s.mem w (s.lview .cons)).mono 1)
      have h3 := (h1.leave w .cons).leave w .prod
      have h4 := h3.finish (w := w) (z := z) hpc (by
          simp only [WeakUnbuf.leave]
          rw [if_neg (by decide), h2.wq]; exact A.emptied z rfl) (by
          simp only [WeakUnbuf.leave, if_true]) (by
          intro q
          simp only [WeakUnbuf.leave]
          cases q
          · rw [if_pos rfl]; exact Nat.le_trans hcur (le_join_right _ _ _)
          · rw [if_neg (by decide), if_pos rfl]; exact Nat.le_trans hcur (le_join_right _ _ _)) (by
          simp only [WeakUnbuf.leave]; rw [h2.held]; exact hn)
      unfold closeEnd
      split
      · rename_i _ x ho
        refine h4.give (w := w) (z := x) ?_ ?_ (by simp only [upd_same]; rfl) (by simp only [upd_same]; rfl) (by simp only [upd_same]; rfl)
        · have h5 := A.gift x (by
            have : s.offer = .late := by
              have h6 : S.offer = .late := ho
              rw [h2.offer] at h6; exact h6
            simp only [Pc.gift?, this, if_true])
          have h6 : S.own = s.own := h2.own
          simp only [WeakUnbuf.leave]
          rw [h6]; exact h5
        · unfold LeftOk
          have h6 : S.offer = .late := ho
          simp only [WeakUnbuf.leave, h6]
          refine ⟨?_, fun u hu => ?_⟩
          · rw [if_neg (by decide), if_pos trivial]
            refine Nat.le_trans ?_ (le_join_right _ _ _)
            refine h1.glob.own x w ?_
            simp only; rw [h2.own]
            refine A.gift x ?_
            have : s.offer = .late := by rw [h2.offer] at h6; exact h6
            simp only [Pc.gift?, this, if_true]
          · rw [if_neg (by decide), h2.held] at hu
            have h8 : s.held .cons = some u := hu
            rw [hn] at h8; cases h8
      · exact h4
    · cases hs

theorem step_inv {s s' : State} {tr o : List Obs} {e : Event} (h : Inv s tr) (hs : step s e = some (s', o)) : Inv s' (tr ++ o) := by
  unfold step at hs
  split at hs
  · cases hs
  · split at hs
    · split at hs
      · rename_i hc
        cases hs
        exact (h.push hc.1 hc.2).quiet (by simp)
      · cases hs
    · rename_i w y
      split at hs
      · rename_i hc
        cases hs
        rw [List.append_nil]
        have A := h.at_ w
        rw [hc.1] at A
        refine h.goto ?_
        refine A.moveL (H := s.held) ?_ ?_ ?_ ?_ ?_ ?_ ?_ ?_ ?_ ?_ ?_ ?_ ?_ ?_ ?_
        mv_base
        · same_locks A
        · intro d hd
          cases y with
          | none => cases hd
          | some y => cases hd; exact of_decide_eq_true hc.2
      · cases hs
    · rename_i w z
      split at hs
      · rename_i hc
        cases hs
        refine Inv.quiet ?_ (by simp)
        have A := h.at_ w
        rw [hc.1] at A
        refine h.goto ?_
        refine A.moveL (H := s.held) ?_ ?_ ?_ ?_ ?_ ?_ ?_ ?_ ?_ ?_ ?_ ?_ ?_ ?_ ?_
        mv_base
        · same_locks A
        · intro d hd
          cases z with
          | none => cases hd
          | some y => cases hd; exact of_decide_eq_true hc.2.1
        · intro d hd hn
          cases hd
          cases hc.2.2 hn
      · cases hs
    · rename_i w x
      split at hs
      · rename_i hc
        cases hs
        refine (h.use hc.2 hc.1 (touch_spec (b := (touch s.mem w (x + 2)).1) rfl)).quiet ?_
        intro v hv
        split at hv <;> simp at hv
      · cases hs
    · exact go_inv h hs

theorem inv_init {strong : Bool} {offer : Offer} {who : Nat → Nat} (hok : offer = .early → strong = true) : Inv (init strong offer who) [] := by
  refine ⟨⟨⟨0, fun t => ?_⟩, ⟨0, fun t => ?_⟩, ?_, ?_, ?_, (by intro c h; cases h), (by intro c h; cases h), hok, fun _ _ _ => Nat.le_refl _, (by intro z h; cases h), ?_⟩, fun w => ?_⟩
  · simp only [init, Weak.start]; split <;> simp_all
  · simp only [init, Weak.start]; split <;> simp_all
  · intro t g hg
    simp only [init, Weak.start] at hg
    split at hg
    · cases hg; simp_all
    · cases hg
  · intro t g c hg hv
    simp only [init, Weak.start] at hg
    split at hg
    · cases hg; cases hv
    · cases hg
  · intro t g c hg _ hv
    simp only [init, Weak.start] at hg
    split at hg
    · cases hg; cases hv
    · cases hg
  · rintro ⟨v, hv⟩; cases hv
  · refine ⟨(by intro c h; cases h), fun q => ⟨(by intro h; cases h), (by intro h; cases q <;> cases h)⟩, (by intro q e h; cases h), (by intro q h; cases h), (by intro h; cases h),
      (by intro q h; cases h), (by intro q h; cases h), (by intro q h; rcases h with h | h <;> cases h), (by intro q h; rcases h with h | h <;> cases h), (by intro q h; cases h), (by intro q h; cases h), (by intro q h; cases h),
      (by intro q h; cases h), (by intro q h; cases h), (by intro h; cases h), (by intro q h; cases h), (by intro h; cases h)⟩

theorem reach_inv {strong : Bool} {offer : Offer} {who : Nat → Nat} (hok : offer = .early → strong = true) {s : State} {tr : List Obs}
    (h : Reach step (init strong offer who) s tr) : Inv s tr :=
  h.inv (fun s tr => Inv s tr) (inv_init hok) (fun _ _ _ _ _ _ hi hs => step_inv hi hs)

end Verif.WeakUnbuf
