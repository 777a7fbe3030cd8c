import Verif.WeakUnbufAll

/-! # What the callers of the unbuffered channel see, under weak memory -/

namespace Verif.WeakUnbuf

open Weak

/-- What a step of fiber `w` does. -/
structure Eff (s s' : State) (tr o : List Obs) (w : Nat) : Prop where
  calls : s'.calls = s.calls
  thr : s'.thr = s.thr
  val : s'.val = s.val
  others : ∀ u, u ≠ w → s'.pc u = s.pc u
  sent : ∀ x c, s'.own x = .sent c → s.own x = .sent c
  taken : ∀ x c v, s'.own x = .taken c v → s.own x = .taken c v ∨ s.own x = .sent c
  alive : ∀ c, s.alive c = true → s'.alive c = true ∨ ∃ b, o = [.pushed w c b]
  obs : o = [] ∨ (∃ c b, o = [.pushed w c b] ∧ (b = true → ∃ u x, Obs.popped u c x ∈ tr)) ∨
    (∃ c, o = [.popped w c (s.val c)] ∧ s.own (s.val c) = .taken c w ∧ c < s.calls ∧ s'.own (s.val c) = .fiber w) ∨
    o = [.popClosed w] ∨ (∃ b, o = [.closed w b] ∧ ((s.pc w).closing = true ∨ ∃ z, s.pc w = .cStart z)) ∨
    (o = [.ub w] ∧ ((s.pc w).closing = true ∨ ∃ c, c < s.calls ∧ s.own (s.val c) = .taken c w ∧ s.alive c = false))
  open_ : s.mem.msg 1 1 = none → (s.pc w).closing = false → (∀ z, s.pc w ≠ .cStart z) →
    s'.mem.msg 1 1 = none ∧ (s'.pc w).closing = false ∧ (∀ z, s'.pc w ≠ .cStart z) ∧ o ≠ [.popClosed w] ∧ ∀ c, o ≠ [.pushed w c false]

theorem claim_own (s : State) (w x : Nat) : (claim s w).own x = s.own x ∨ (claim s w).own x = .fiber w := by
  unfold claim
  split
  · exact .inl rfl
  · simp only [upd_apply]
    split
    · exact .inr rfl
    · exact .inl rfl

theorem claim_rest (s : State) (w : Nat) : (claim s w).calls = s.calls ∧ (claim s w).thr = s.thr ∧ (claim s w).val = s.val ∧ (claim s w).pc = s.pc ∧
    (claim s w).alive = s.alive ∧ (claim s w).mem = s.mem := by
  unfold claim
  split <;> exact ⟨rfl, rfl, rfl, rfl, rfl, rfl⟩

/-- A step that does not touch what the callers own. -/
theorem Eff.plain {s s' : State} {tr : List Obs} {w : Nat} {p : Pc} (h1 : s'.calls = s.calls) (h2 : s'.thr = s.thr) (h3 : s'.val = s.val)
    (h4 : s'.pc = upd s.pc w p) (h5 : s'.own = s.own) (h6 : s'.alive = s.alive) (h7 : s'.mem.msg 1 = s.mem.msg 1 ∨ s.pc w = s.pc w ∧ ((s.pc w).closing = true ∨ ∃ z, s.pc w = .cStart z))
    (h8 : p.closing = true → (s.pc w).closing = true ∨ ∃ z, s.pc w = .cStart z) (h9 : ∀ z, p ≠ .cStart z) : Eff s s' tr [] w where
  calls := h1
  thr := h2
  val := h3
  others := fun u hu => by rw [h4, upd_other _ _ hu]
  sent := fun x c h => by rw [← h5]; exact h
  taken := fun x c v h => .inl (by rw [← h5]; exact h)
  alive := fun c h => .inl (by rw [h6]; exact h)
  obs := .inl rfl
  open_ := fun a b c => by
    refine ⟨?_, ?_, by rw [h4, upd_same]; exact h9, nofun, nofun⟩
    · rcases h7 with h | ⟨_, h | ⟨z, h⟩⟩
      · rw [h]; exact a
      · rw [b] at h; cases h
      · exact absurd h (c z)
    · rw [h4, upd_same]
      cases hp : p.closing with
      | false => rfl
      | true =>
        rcases h8 hp with h | ⟨z, h⟩
        · rw [b] at h; cases h
        · exact absurd h (c z)

/-- A push call returns `closed`. -/
theorem Eff.fail {s s1 : State} {tr : List Obs} {w c : Nat} (h1 : s1.calls = s.calls) (h2 : s1.thr = s.thr) (h3 : s1.val = s.val)
    (h4 : s1.pc = s.pc) (h5 : s1.own = s.own) (h6 : s1.alive = s.alive) (h7 : s.mem.msg 1 1 ≠ none) :
    Eff s (pushClosed s1 w c).1 tr (pushClosed s1 w c).2 w := by
  have e : ∀ s2 : State, s2.calls = s.calls → s2.thr = s.thr → s2.val = s.val → s2.pc = upd s.pc w .idle → (∀ x, s2.own x = s.own x ∨ s2.own x = .fiber w) →
      s2.alive = upd s.alive c false → Eff s s2 tr [.pushed w c false] w := by
    intro s2 e1 e2 e3 e4 e5 e6
    refine ⟨e1, e2, e3, fun u hu => by rw [e4, upd_other _ _ hu], fun x d h => ?_, fun x d v h => .inl ?_, fun d h => ?_, .inr (.inl ⟨c, false, rfl, nofun⟩), fun h => absurd h h7⟩
    · rcases e5 x with h1 | h1
      · rw [← h1]; exact h
      · rw [h1] at h; cases h
    · rcases e5 x with h1 | h1
      · rw [← h1]; exact h
      · rw [h1] at h; cases h
    · by_cases hd : d = c
      · rw [hd]; exact .inr ⟨false, rfl⟩
      · refine .inl ?_
        rw [e6, upd_other _ _ hd]; exact h
  unfold pushClosed
  simp only
  split
  · obtain ⟨c1, c2, c3, c4, c5, _⟩ := claim_rest { s1 with pc := upd s1.pc w .idle, alive := upd s1.alive c false } w
    refine e _ (c1.trans h1) (c2.trans h2) (c3.trans h3) (c4.trans (by simp only [h4])) (fun x => ?_) (c5.trans (by simp only [h6]))
    have := claim_own { s1 with pc := upd s1.pc w .idle, alive := upd s1.alive c false } w x
    rcases this with h | h
    · exact .inl (h.trans (congrFun h5 x))
    · exact .inr h
  · exact e _ h1 h2 h3 (by simp only [h4]) (fun x => .inl (by simp only [h5])) (by simp only [h6])

theorem flag_not_none {s : State} {tr : List Obs} (G : Glob s tr) {w t v : Nat} {m : Mem} {g : Msg} (L : Loaded s.mem w 1 t true v m g) (hv : v ≠ 0) : s.mem.msg 1 1 ≠ none := by
  have h1 := flag_set G L hv
  obtain ⟨n, hn⟩ := G.flag
  have h2 := (hn t).1 (by rw [L.read]; rfl)
  intro h
  have h3 := (hn 1).2 (by omega)
  rw [h] at h3; cases h3

theorem go_eff {s s' : State} {tr o : List Obs} {w t : Nat} (h : Inv s tr) (hs : go s w t = some (s', o)) : Eff s s' tr o w := by
  have G := h.glob
  have A := h.at_ w
  unfold go at hs
  split at hs <;> rename_i hp <;> rw [hp] at A
  · cases hs
  · -- pStart
    rename_i c
    split at hs
    · cases hs
    · rename_i v m hl
      obtain ⟨g, L⟩ := load_spec hl
      split at hs <;> cases hs
      · exact .plain (p := .pTry c) rfl rfl rfl rfl rfl rfl (.inl (by simp only [L.msg])) nofun nofun
      · rename_i hv
        exact .fail rfl rfl rfl rfl rfl rfl (flag_not_none G L hv)
  · -- pTry
    rename_i c
    split at hs
    · cases hs
    · rename_i v m hl
      obtain ⟨g, L⟩ := load_spec hl
      cases hs
      refine .plain (p := if v = 0 then .pCas c else .pLock c) rfl rfl rfl rfl rfl rfl (.inl (by simp only [L.msg])) ?_ ?_
      · split <;> nofun
      · split <;> nofun
  · -- pCas
    rename_i c
    split at hs
    · cases hs
    · rename_i b v m hl
      rcases cas_spec hl with ⟨rfl, _, g, M⟩ | ⟨rfl, _, g, L⟩
      · simp only [if_true] at hs; cases hs
        obtain ⟨n, _, _, _, _, hm⟩ := M.msg
        exact .plain (p := .pNotify c) rfl rfl rfl rfl rfl rfl (.inl (by simp only [hm]; rw [upd_other _ _ (by decide)])) nofun nofun
      · simp only [Bool.false_eq_true, if_false] at hs; cases hs
        exact .plain (p := .pTry c) rfl rfl rfl rfl rfl rfl (.inl (by simp only [L.msg])) nofun nofun
  · -- pNotify
    rename_i c
    split at hs
    · cases hs
      have h1 : Inv (enter s w .cons) tr := h.grow (grow_learn s.mem w (s.lview .cons))
      obtain ⟨_, S, _⟩ := notifyOne_ok (w := w) (q := .cons) ((enter s w .cons).wq .cons) h1 (fun _ h => h)
      exact .plain (p := .pWait c) S.calls S.thr S.val (by simp only [leave, S.pc]; rfl) S.own S.alive (.inl (by simp only [leave, S.mem]; rfl)) nofun nofun
    · cases hs
  · -- pWait
    rename_i c
    split at hs
    · cases hs
      exact .plain (p := .pAfter c) rfl rfl rfl rfl rfl rfl (.inl rfl) nofun nofun
    · cases hs
  · -- pAfter
    rename_i c
    split at hs
    · cases hs
    · rename_i v m hl
      obtain ⟨g, L⟩ := load_spec hl
      split at hs
      · rename_i hv
        rcases (A.after c rfl).2 with h2 | ⟨h2, _, h3⟩
        · rw [flag_clear G L hv] at h2; omega
        · have e : ∀ s2 : State, s2.calls = s.calls → s2.thr = s.thr → s2.val = s.val → s2.pc = upd s.pc w .idle → (∀ x, s2.own x = s.own x ∨ s2.own x = .fiber w) →
              s2.alive = upd s.alive c false → s2.mem.msg = s.mem.msg → Eff s s2 tr [.pushed w c true] w := by
            intro s2 e1 e2 e3 e4 e5 e6 e7
            refine ⟨e1, e2, e3, fun u hu => by rw [e4, upd_other _ _ hu], fun x d h => ?_, fun x d v h => .inl ?_, fun d h => ?_, .inr (.inl ⟨c, true, rfl, fun _ => h2⟩), fun h1 _ _ => ?_⟩
            · rcases e5 x with h1 | h1
              · rw [← h1]; exact h
              · rw [h1] at h; cases h
            · rcases e5 x with h1 | h1
              · rw [← h1]; exact h
              · rw [h1] at h; cases h
            · by_cases hd : d = c
              · rw [hd]; exact .inr ⟨true, rfl⟩
              · refine .inl ?_
                rw [e6, upd_other _ _ hd]; exact h
            · rw [e7, e4, upd_same]
              exact ⟨h1, rfl, nofun, by simp, by simp⟩
          split at hs <;> cases hs
          · exact e _ rfl rfl rfl rfl (fun _ => .inl rfl) rfl L.msg
          · rename_i y hb
            refine e _ rfl rfl rfl rfl (fun x => ?_) rfl L.msg
            simp only [upd_apply]
            split
            · exact .inr rfl
            · exact .inl rfl
      · rename_i hv
        cases hs
        exact .fail rfl rfl rfl rfl rfl rfl (flag_not_none G L hv)
  · -- pLock
    rename_i c
    split at hs
    · cases hs
      exact .plain (p := .pClosed c) rfl rfl rfl rfl rfl rfl (.inl rfl) nofun nofun
    · cases hs
  · -- pClosed
    rename_i c
    split at hs
    · cases hs
    · rename_i v m hl
      obtain ⟨g, L⟩ := load_spec hl
      split at hs <;> cases hs
      · exact .plain (p := .pEmpty c) rfl rfl rfl rfl rfl rfl (.inl (by simp only [L.msg])) nofun nofun
      · rename_i hv
        exact .fail rfl rfl rfl rfl rfl rfl (flag_not_none G L hv)
  · -- pEmpty
    rename_i c
    split at hs
    · cases hs
    · rename_i v m hl
      obtain ⟨g, L⟩ := load_spec hl
      split at hs <;> cases hs
      · exact .plain (p := .pStart c) rfl rfl rfl rfl rfl rfl (.inl (by simp only [unlock, leave, L.msg])) nofun nofun
      · exact .plain (p := .pQueued c) rfl rfl rfl rfl rfl rfl (.inl (by simp only [enqueue, unlock, leave, L.msg])) nofun nofun
  · -- pQueued
    rename_i c
    split at hs
    · cases hs
      exact .plain (p := .pStart c) rfl rfl rfl rfl rfl rfl (.inl rfl) nofun nofun
    · cases hs
  · -- oStart
    rename_i y
    split at hs
    · cases hs
    · rename_i v m hl
      obtain ⟨g, L⟩ := load_spec hl
      cases hs
      refine .plain (p := if v = 0 then .oLock y else .oCas y (v - 1)) rfl rfl rfl rfl rfl rfl (.inl (by simp only [L.msg])) ?_ ?_
      · split <;> nofun
      · split <;> nofun
  · -- oCas
    rename_i y c
    split at hs
    · cases hs
    · rename_i b v m hl
      rcases cas_spec hl with ⟨rfl, hv, g, M⟩ | ⟨rfl, _, g, L⟩
      · simp only [if_true] at hs
        obtain ⟨n, _, _, _, _, hm⟩ := M.msg
        obtain ⟨hown, _⟩ := G.top t g c M.read M.free (by rw [← M.val]; exact hv)
        have e : ∀ s2 : State, s2.calls = s.calls → s2.thr = s.thr → s2.val = s.val → s2.pc = upd s.pc w (.oNotify c) →
            (∀ x, s2.own x = s.own x ∨ s2.own x = .back c ∨ (x = s.val c ∧ s2.own x = .taken c w)) →
            s2.alive = s.alive → s2.mem = m → Eff s s2 tr [] w := by
          intro s2 e1 e2 e3 e4 e5 e6 e7
          refine ⟨e1, e2, e3, fun u hu => by rw [e4, upd_other _ _ hu], fun x d h => ?_, fun x d v h => ?_, fun d h => .inl (by rw [e6]; exact h), .inl rfl, fun h1 _ _ => ?_⟩
          · rcases e5 x with h1 | h1 | ⟨_, h1⟩
            · rw [← h1]; exact h
            · rw [h1] at h; cases h
            · rw [h1] at h; cases h
          · rcases e5 x with h1 | h1 | ⟨h2, h1⟩
            · exact .inl (by rw [← h1]; exact h)
            · rw [h1] at h; cases h
            · rw [h1] at h; cases h
              rw [h2]; exact .inr hown
          · rw [e7, e4, upd_same, hm, upd_other _ _ (by decide)]
            exact ⟨h1, rfl, nofun, by simp, by simp⟩
        split at hs <;> cases hs
        · refine e _ rfl rfl rfl rfl (fun x => ?_) rfl rfl
          simp only [upd_apply]
          split
          · rename_i hx; exact .inr (.inr ⟨hx, rfl⟩)
          · exact .inl rfl
        · refine e _ rfl rfl rfl rfl (fun x => ?_) rfl rfl
          simp only [upd_apply]
          split
          · rename_i hx; exact .inr (.inr ⟨hx, rfl⟩)
          · split
            · exact .inr (.inl rfl)
            · exact .inl rfl
      · simp only [Bool.false_eq_true, if_false] at hs; cases hs
        exact .plain (p := .oStart y) rfl rfl rfl rfl rfl rfl (.inl (by simp only [L.msg])) nofun nofun
  · -- oNotify
    rename_i c
    split at hs
    · cases hs
      have h1 : Inv (enter s w .prod) tr := h.grow (grow_learn s.mem w (s.lview .prod))
      obtain ⟨_, S, _⟩ := notifyOne_ok (w := w) (q := .prod) ((enter s w .prod).wq .prod) h1 (fun _ h => h)
      exact .plain (p := .oRead c) S.calls S.thr S.val (by simp only [leave, S.pc]; rfl) S.own S.alive (.inl (by simp only [leave, S.mem]; rfl)) nofun nofun
    · cases hs
  · -- oRead
    rename_i c
    split at hs <;> cases hs
    · exact .plain (p := .oWake c) rfl rfl rfl rfl rfl rfl (.inl rfl) nofun nofun
    · rename_i ha
      refine ⟨rfl, rfl, rfl, fun _ _ => rfl, fun _ _ h => h, fun _ _ _ h => .inl h, fun _ h => .inl h, ?_, ?_⟩
      · exact .inr (.inr (.inr (.inr (.inr ⟨rfl, .inr ⟨c, G.pub c (A.ref c rfl), (A.took c rfl).1, by simpa using ha⟩⟩))))
      · intro h1 h2 h3; exact ⟨h1, h2, h3, by simp, by simp⟩
  · -- oWake
    rename_i c
    have htk := A.took c rfl
    split at hs
    · cases hs
      have S := wake_same s w (s.thr c) (s.ep c)
      refine ⟨S.calls, S.thr, S.val, fun u hu => ?_, fun x d h => ?_, fun x d v h => .inl ?_, fun d h => .inl ?_, ?_, fun h1 _ _ => ?_⟩
      · simp only [S.pc, upd_other _ _ hu]
      · simp only [S.own, upd_apply] at h
        split at h
        · cases h
        · exact h
      · simp only [S.own, upd_apply] at h
        split at h
        · cases h
        · exact h
      · simp only [S.alive]; exact h
      · exact .inr (.inr (.inl ⟨c, rfl, htk.1, G.pub c (A.ref c rfl), by simp only [upd_same]⟩))
      · simp only [S.mem, upd_same]; exact ⟨h1, rfl, nofun, by simp, by simp⟩
    · cases hs
      rename_i ha
      refine ⟨rfl, rfl, rfl, fun _ _ => rfl, fun _ _ h => h, fun _ _ _ h => .inl h, fun _ h => .inl h, ?_, ?_⟩
      · exact .inr (.inr (.inr (.inr (.inr ⟨rfl, .inr ⟨c, G.pub c (A.ref c rfl), htk.1, by simpa using ha⟩⟩))))
      · intro h1 h2 h3; exact ⟨h1, h2, h3, by simp, by simp⟩
  · -- oLock
    rename_i y
    split at hs
    · cases hs
      exact .plain (p := .oClosed y) rfl rfl rfl rfl rfl rfl (.inl rfl) nofun nofun
    · cases hs
  · -- oClosed
    rename_i y
    split at hs
    · cases hs
    · rename_i v m hl
      obtain ⟨g, L⟩ := load_spec hl
      split at hs <;> cases hs
      · exact .plain (p := .oEmpty y) rfl rfl rfl rfl rfl rfl (.inl (by simp only [L.msg])) nofun nofun
      · rename_i hv
        have hf := flag_not_none G L hv
        obtain ⟨c1, c2, c3, c4, c5, _⟩ := claim_rest { unlock { s with mem := m } w .cons with pc := upd s.pc w .idle } w
        have c6 := claim_own { unlock { s with mem := m } w .cons with pc := upd s.pc w .idle } w
        refine ⟨c1, c2, c3, fun u hu => ?_, fun x d h => ?_, fun x d v h => .inl ?_, fun d h => .inl ?_, .inr (.inr (.inr (.inl rfl))), fun h => absurd h hf⟩
        · have := congrFun c4 u
          simp only [upd_other _ _ hu] at this
          exact this
        · rcases c6 x with h1 | h1
          · exact h1.symm.trans h
          · cases h1.symm.trans h
        · rcases c6 x with h1 | h1
          · exact h1.symm.trans h
          · cases h1.symm.trans h
        · exact (congrFun c5 d).trans h
  · -- oEmpty
    rename_i y
    split at hs
    · cases hs
    · rename_i v m hl
      obtain ⟨g, L⟩ := load_spec hl
      split at hs <;> cases hs
      · exact .plain (p := .oQueued y) rfl rfl rfl rfl rfl rfl (.inl (by simp only [enqueue, unlock, leave, L.msg])) nofun nofun
      · exact .plain (p := .oStart y) rfl rfl rfl rfl rfl rfl (.inl (by simp only [unlock, leave, L.msg])) nofun nofun
  · -- oQueued
    rename_i y
    split at hs
    · cases hs
      exact .plain (p := .oStart y) rfl rfl rfl rfl rfl rfl (.inl rfl) nofun nofun
    · cases hs
  · -- cStart
    rename_i z
    split at hs
    · cases hs
    · rename_i v m hl
      split at hs <;> cases hs
      · unfold closeSet
        split
        · refine ⟨rfl, rfl, rfl, fun u hu => by simp only [upd_other _ _ hu], fun x d h => ?_, fun x d v h => .inl ?_, fun d h => .inl h, .inl rfl, fun _ _ h => absurd hp (h _)⟩
          · simp only [upd_apply] at h
            split at h
            · cases h
            · exact h
          · simp only [upd_apply] at h
            split at h
            · cases h
            · exact h
        · exact ⟨rfl, rfl, rfl, fun u hu => by simp only [upd_other _ _ hu], fun x d h => h, fun x d v h => .inl h, fun d h => .inl h, .inl rfl, fun _ _ h => absurd hp (h _)⟩
      · exact ⟨rfl, rfl, rfl, fun u hu => by simp only [upd_other _ _ hu], fun x d h => h, fun x d v h => .inl h, fun d h => .inl h,
          .inr (.inr (.inr (.inr (.inl ⟨false, rfl, .inr ⟨z, hp⟩⟩)))), fun _ _ h => absurd hp (h _)⟩
  · -- cLoad
    rename_i z
    split at hs
    · cases hs
    · rename_i v m hl
      cases hs
      refine .plain (p := if v = 0 then .cProd z else .cWake z (v - 1)) rfl rfl rfl rfl rfl rfl (.inr ⟨rfl, .inl (by rw [hp]; rfl)⟩) (fun _ => .inl (by rw [hp]; rfl)) ?_
      split <;> nofun
  · -- cWake
    rename_i z c
    split at hs
    · cases hs
      have S := wake_same s w (s.thr c) (s.ep c)
      exact .plain (p := .cProd z) S.calls S.thr S.val (by simp only [S.pc]) S.own S.alive (.inr ⟨rfl, .inl (by rw [hp]; rfl)⟩) (fun _ => .inl (by rw [hp]; rfl)) nofun
    · cases hs
      refine ⟨rfl, rfl, rfl, fun _ _ => rfl, fun _ _ h => h, fun _ _ _ h => .inl h, fun _ h => .inl h, ?_, ?_⟩
      · exact .inr (.inr (.inr (.inr (.inr ⟨rfl, .inl (by rw [hp]; rfl)⟩))))
      · intro _ h2 _; rw [hp] at h2; cases h2
  · -- cProd
    rename_i z
    split at hs
    · cases hs
      obtain ⟨_, S⟩ := h.all (w := w) (q := .prod)
      exact .plain (p := .cCons z) S.calls S.thr S.val (by simp only [S.pc]; rfl) S.own S.alive (.inr ⟨rfl, .inl (by rw [hp]; rfl)⟩) (fun _ => .inl (by rw [hp]; rfl)) nofun
    · cases hs
  · -- cCons
    rename_i z
    split at hs
    · cases hs
      obtain ⟨_, S⟩ := h.all (w := w) (q := .cons)
      generalize notifyAll (enter s w .cons) w ((enter s w .cons).wq .cons) = S' at S ⊢
      have hcl : (s.pc w).closing = true := by rw [hp]; rfl
      have ob : ∀ {P1 P2 P3 P4 : Prop}, P1 ∨ P2 ∨ P3 ∨ P4 ∨ (∃ b, [Obs.closed w true] = [.closed w b] ∧ ((s.pc w).closing = true ∨ ∃ z, s.pc w = .cStart z)) ∨
          ([Obs.closed w true] = [.ub w] ∧ ((s.pc w).closing = true ∨ ∃ c, c < s.calls ∧ s.own (s.val c) = .taken c w ∧ s.alive c = false)) :=
        fun {_ _ _ _} => .inr (.inr (.inr (.inr (.inl ⟨true, rfl, .inl hcl⟩))))
      have opn : (s.pc w).closing = false → False := fun h => by rw [hcl] at h; cases h
      unfold closeEnd
      split
      · refine ⟨S.calls, S.thr, S.val, fun u hu => ?_, fun x d h => ?_, fun x d v h => .inl ?_, fun d h => .inl ?_, ob, fun _ h _ => (opn h).elim⟩
        · simp only [unlock, leave, upd_other _ _ hu, S.pc]; rfl
        · simp only [unlock, leave, upd_apply, S.own] at h
          split at h
          · cases h
          · exact h
        · simp only [unlock, leave, upd_apply, S.own] at h
          split at h
          · cases h
          · exact h
        · simp only [unlock, leave, S.alive]; exact h
      · refine ⟨S.calls, S.thr, S.val, fun u hu => ?_, fun x d h => ?_, fun x d v h => .inl ?_, fun d h => .inl ?_, ob, fun _ h _ => (opn h).elim⟩
        · simp only [unlock, leave, upd_other _ _ hu, S.pc]; rfl
        · simp only [unlock, leave, S.own] at h; exact h
        · simp only [unlock, leave, S.own] at h; exact h
        · simp only [unlock, leave, S.alive]; exact h
    · cases hs

/-- What the trace says about the state. -/
structure Told (s : State) (tr : List Obs) : Prop where
  pops : ∀ u c x, Obs.popped u c x ∈ tr → c < s.calls ∧ x = s.val c ∧ s.own (s.val c) ≠ .sent c ∧ ∀ v, s.own (s.val c) ≠ .taken c v
  calls : ∀ c, c < s.calls → Obs.push (s.thr c) c (s.val c) ∈ tr
  push : ∀ w c x, Obs.push w c x ∈ tr → c < s.calls ∧ x = s.val c ∧ w = s.thr c
  open_ : (∀ w, Obs.close w ∉ tr) → s.mem.msg 1 1 = none ∧ (∀ w, (s.pc w).closing = false ∧ ∀ z, s.pc w ≠ .cStart z) ∧
    (∀ c, c < s.calls → (s.own (s.val c) = .sent c ∨ ∃ w, s.own (s.val c) = .taken c w) → s.alive c = true) ∧
    ∀ w, Obs.ub w ∉ tr ∧ Obs.popClosed w ∉ tr ∧ ∀ c, Obs.pushed w c false ∉ tr

theorem told_go {s s' : State} {tr o : List Obs} {w : Nat} (T : Told s tr) (E : Eff s s' tr o w) : Told s' (tr ++ o) where
  pops := by
    intro u c x hx
    rw [E.calls, E.val]
    rcases List.mem_append.1 hx with h1 | h1
    · obtain ⟨h2, h3, h4, h5⟩ := T.pops u c x h1
      refine ⟨h2, h3, fun h => h4 (E.sent _ _ h), fun v h => ?_⟩
      rcases E.taken _ _ _ h with h6 | h6
      · exact h5 v h6
      · exact h4 h6
    · rcases E.obs with h2 | ⟨d, b, h2, _⟩ | ⟨d, h2, h3, h4, h5⟩ | h2 | ⟨b, h2, _⟩ | ⟨h2, _⟩ <;> rw [h2] at h1
      · cases h1
      · simp at h1
      · simp only [List.mem_singleton, Obs.popped.injEq] at h1
        obtain ⟨rfl, rfl, rfl⟩ := h1
        exact ⟨h4, rfl, by rw [h5]; nofun, by rw [h5]; nofun⟩
      · simp at h1
      · simp at h1
      · simp at h1
  calls := by
    intro c hc
    rw [E.calls] at hc
    rw [E.thr, E.val]
    exact List.mem_append_left _ (T.calls c hc)
  push := by
    intro u c x hx
    rw [E.calls, E.val, E.thr]
    rcases List.mem_append.1 hx with h1 | h1
    · exact T.push u c x h1
    · rcases E.obs with h2 | ⟨d, b, h2, _⟩ | ⟨d, h2, _⟩ | h2 | ⟨b, h2, _⟩ | ⟨h2, _⟩ <;> rw [h2] at h1 <;> simp at h1
  open_ := by
    intro hn
    obtain ⟨h1, h2, h3, h4⟩ := T.open_ (fun u hu => hn u (List.mem_append_left _ hu))
    obtain ⟨h5, h6, h7, h8, h9⟩ := E.open_ h1 (h2 w).1 (h2 w).2
    refine ⟨h5, fun u => ?_, fun c hc ho => ?_, fun u => ?_⟩
    · by_cases hu : u = w
      · rw [hu]; exact ⟨h6, h7⟩
      · rw [E.others u hu]; exact h2 u
    · rw [E.calls] at hc
      rw [E.val] at ho
      have ho' : s.own (s.val c) = .sent c ∨ ∃ v, s.own (s.val c) = .taken c v := by
        rcases ho with h | ⟨v, h⟩
        · exact .inl (E.sent _ _ h)
        · rcases E.taken _ _ _ h with h | h
          · exact .inr ⟨v, h⟩
          · exact .inl h
      rcases E.alive c (h3 c hc ho') with h | ⟨b, hb⟩
      · exact h
      · cases b with
        | false => exact absurd hb (h9 c)
        | true =>
          rcases E.obs with e | ⟨d, b, e, hd⟩ | ⟨d, e, _⟩ | e | ⟨b, e, _⟩ | ⟨e, _⟩ <;> rw [hb] at e
          · cases e
          · simp only [List.cons.injEq, Obs.pushed.injEq, true_and, and_true] at e
            obtain ⟨rfl, rfl⟩ := e
            obtain ⟨u, x, hx⟩ := hd rfl
            obtain ⟨_, _, g1, g2⟩ := T.pops u c x hx
            rcases ho' with h | ⟨v, h⟩
            · exact absurd h g1
            · exact absurd h (g2 v)
          · cases e
          · cases e
          · cases e
          · cases e
    · obtain ⟨g1, g2, g3⟩ := h4 u
      rcases E.obs with e | ⟨d, b, e, hd⟩ | ⟨d, e, _⟩ | e | ⟨b, e, _⟩ | ⟨e, hd⟩
      · rw [e, List.append_nil]; exact ⟨g1, g2, g3⟩
      · cases b with
        | false => exact absurd e (h9 d)
        | true => rw [e]; simp [g1, g2, g3]
      · rw [e]; simp [g1, g2, g3]
      · exact absurd e h8
      · rw [e]; simp [g1, g2, g3]
      · rcases hd with hd | ⟨c, hd1, hd2, hd3⟩
        · rw [(h2 w).1] at hd; cases hd
        · rw [h3 c hd1 (.inr ⟨w, hd2⟩)] at hd3; cases hd3

theorem told_step {s s' : State} {tr o : List Obs} {e : Event} (h : Inv s tr) (T : Told s tr) (hs : step s e = some (s', o)) : Told s' (tr ++ o) := by
  unfold step at hs
  split at hs
  · cases hs
  · split at hs
    · rename_i w x
      split at hs
      · rename_i hc
        cases hs
        have G := h.glob
        have ne : ∀ {c}, c < s.calls → c ≠ s.calls := fun h e => by omega
        have key : ∀ y c, c < s.calls → (upd s.own x (.sent s.calls) y = .sent c → s.own y = .sent c) ∧ ∀ v, upd s.own x (.sent s.calls) y = .taken c v → s.own y = .taken c v := by
          intro y c hc
          constructor
          · intro h
            rw [upd_apply] at h
            split at h
            · cases h; omega
            · exact h
          · intro v h
            rw [upd_apply] at h
            split at h
            · cases h
            · exact h
        refine ⟨?_, ?_, ?_, ?_⟩
        · intro u c y hy
          simp only [List.mem_append, List.mem_singleton, reduceCtorEq, or_false] at hy
          obtain ⟨h1, h2, h3, h4⟩ := T.pops u c y hy
          simp only
          rw [upd_other s.val _ (ne h1)]
          exact ⟨by omega, h2, fun h => h3 ((key _ c h1).1 h), fun v h => h4 v ((key _ c h1).2 v h)⟩
        · intro c hc
          simp only at hc ⊢
          by_cases he : c = s.calls
          · rw [he, upd_same, upd_same]; simp
          · rw [upd_other _ _ he, upd_other _ _ he]
            exact List.mem_append_left _ (T.calls c (by omega))
        · intro u c y hy
          simp only [List.mem_append, List.mem_singleton, Obs.push.injEq] at hy
          simp only
          rcases hy with hy | ⟨rfl, rfl, rfl⟩
          · obtain ⟨h1, h2, h3⟩ := T.push u c y hy
            rw [upd_other _ _ (ne h1), upd_other _ _ (ne h1)]
            exact ⟨by omega, h2, h3⟩
          · rw [upd_same, upd_same]; exact ⟨by omega, rfl, rfl⟩
        · intro hn
          obtain ⟨h1, h2, h3, h4⟩ := T.open_ (fun u hu => hn u (List.mem_append_left _ hu))
          refine ⟨h1, fun u => ?_, fun c hc ho => ?_, fun u => ?_⟩
          · simp only [upd_apply]
            split
            · exact ⟨rfl, nofun⟩
            · exact h2 u
          · simp only at hc ho ⊢
            by_cases he : c = s.calls
            · rw [he, upd_same]
            · have hc : c < s.calls := by omega
              rw [upd_other _ _ he]
              rw [upd_other s.val _ he] at ho
              refine h3 c hc ?_
              rcases ho with h | ⟨v, h⟩
              · exact .inl ((key _ c hc).1 h)
              · exact .inr ⟨v, (key _ c hc).2 v h⟩
          · obtain ⟨g1, g2, g3⟩ := h4 u
            simp [g1, g2, g3]
      · cases hs
    · rename_i w y
      split at hs
      · cases hs
        rw [List.append_nil]
        refine ⟨T.pops, T.calls, T.push, fun hn => ?_⟩
        obtain ⟨h1, h2, h3, h4⟩ := T.open_ hn
        refine ⟨h1, fun u => ?_, h3, h4⟩
        simp only [upd_apply]
        split
        · exact ⟨rfl, nofun⟩
        · exact h2 u
      · cases hs
    · rename_i w z
      split at hs
      · cases hs
        refine ⟨fun u c x hx => T.pops u c x (by simpa using hx), fun c hc => List.mem_append_left _ (T.calls c hc), fun u c x hx => T.push u c x (by simpa using hx), fun hn => ?_⟩
        exact absurd (by simp) (hn w)
      · cases hs
    · rename_i w x
      split at hs
      · cases hs
        have TT := touch_spec (m := s.mem) (w := w) (x := x + 2) rfl
        generalize hb : (if (touch s.mem w (x + 2)).1 = true then Obs.race w x else Obs.used w x) = ob
        have hob : ob = .race w x ∨ ob = .used w x := by
          rw [← hb]; split
          · exact .inl rfl
          · exact .inr rfl
        have mem : ∀ o, o ∈ tr ++ [ob] → o ∈ tr ∨ o = .race w x ∨ o = .used w x := by
          intro o ho
          rcases List.mem_append.1 ho with h | h
          · exact .inl h
          · rw [List.mem_singleton] at h
            rw [h]; exact .inr hob
        refine ⟨fun u c x hx => ?_, fun c hc => List.mem_append_left _ (T.calls c hc), fun u c x hx => ?_, fun hn => ?_⟩
        · rcases mem _ hx with h1 | h1 | h1
          · exact T.pops u c x h1
          · cases h1
          · cases h1
        · rcases mem _ hx with h1 | h1 | h1
          · exact T.push u c x h1
          · cases h1
          · cases h1
        · obtain ⟨h1, h2, h3, h4⟩ := T.open_ (fun u hu => hn u (List.mem_append_left _ hu))
          refine ⟨by simp only [TT.msg]; exact h1, h2, h3, fun u => ?_⟩
          obtain ⟨g1, g2, g3⟩ := h4 u
          refine ⟨fun h => ?_, fun h => ?_, fun c h => ?_⟩
          · rcases mem _ h with h1 | h1 | h1
            · exact g1 h1
            · cases h1
            · cases h1
          · rcases mem _ h with h1 | h1 | h1
            · exact g2 h1
            · cases h1
            · cases h1
          · rcases mem _ h with h1 | h1 | h1
            · exact g3 c h1
            · cases h1
            · cases h1
      · cases hs
    · exact told_go T (go_eff h hs)

theorem told_init {strong : Bool} {offer : Offer} {who : Nat → Nat} : Told (init strong offer who) [] :=
  ⟨nofun, nofun, nofun, fun _ => ⟨rfl, fun _ => ⟨rfl, nofun⟩, nofun, fun _ => by simp⟩⟩

theorem reach_all {strong : Bool} {offer : Offer} {who : Nat → Nat} (hok : offer = .early → strong = true) {s : State} {tr : List Obs}
    (h : Reach step (init strong offer who) s tr) : Inv s tr ∧ Told s tr :=
  h.inv (fun s tr => Inv s tr ∧ Told s tr) ⟨inv_init hok, told_init⟩ (fun _ _ _ _ _ _ hi hs => ⟨step_inv hi.1 hs, told_step hi.1 hi.2 hs⟩)

/-- Every step shows at most one observation. -/
theorem step_one {s s' : State} {tr o : List Obs} {e : Event} (h : Inv s tr) (hs : step s e = some (s', o)) : o = [] ∨ ∃ x, o = [x] := by
  unfold step at hs
  split at hs
  · cases hs
  · split at hs
    · split at hs <;> cases hs
      exact .inr ⟨_, rfl⟩
    · split at hs <;> cases hs
      exact .inl rfl
    · split at hs <;> cases hs
      exact .inr ⟨_, rfl⟩
    · split at hs <;> cases hs
      exact .inr ⟨_, rfl⟩
    · rcases (go_eff h hs).obs with h2 | ⟨d, b, h2, _⟩ | ⟨d, h2, _⟩ | h2 | ⟨b, h2, _⟩ | ⟨h2, _⟩
      · exact .inl h2
      all_goals exact .inr ⟨_, h2⟩

/-- The step that showed an observation. -/
theorem cut {strong : Bool} {offer : Offer} {who : Nat → Nat} (hok : offer = .early → strong = true) {s : State} {tr : List Obs}
    (h : Reach step (init strong offer who) s tr) {a b : List Obs} {x : Obs} (ht : tr = a ++ x :: b) :
    ∃ s1 e s2, Reach step (init strong offer who) s1 a ∧ step s1 e = some (s2, [x]) := by
  induction h generalizing b with
  | refl => simp at ht
  | @tail s1 s2 tr1 o e hr hs ih =>
    rcases step_one (reach_inv hok hr) hs with h1 | ⟨y, h1⟩
    · rw [h1, List.append_nil] at ht
      exact ih ht
    · subst h1
      rcases List.eq_nil_or_concat b with hb | ⟨b', z, hb⟩
      · subst hb
        have := List.append_inj' ht rfl
        rw [this.1] at hr
        rw [this.2] at hs
        exact ⟨s1, e, s2, hr, hs⟩
      · subst hb
        rw [List.concat_eq_append, ← List.cons_append, ← List.append_assoc] at ht
        exact ih (List.append_inj' ht rfl).1

end Verif.WeakUnbuf
