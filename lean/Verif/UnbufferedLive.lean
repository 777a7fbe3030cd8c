import Verif.UnbufferedTrace

/-!
# Unbuffered channel: who is blocked, and who will wake them
-/

namespace Verif.Unbuf

variable {V : Type}

/-- The wait queue a suspended fiber is registered in. -/
def Pc.waits : Pc V → Option Side
  | .waitPush _ _ _ => some .prod
  | .waitPop _ _ => some .cons
  | _ => none

theorem waits_reg {p : Pc V} {i : Side} (h : p.waits = some i) : ∃ r, regOf p = some r ∧ r.q = some i ∧ r.late = false := by
  cases p <;> simp [Pc.waits] at h <;> subst h <;> simp [regOf]

theorem reg_waits {p : Pc V} {i : Side} {r : WReg (Option Side)} (h : regOf p = some r) (hq : r.q = some i)
    (hl : r.late = false) : p.waits = some i := by
  cases p <;> simp [regOf] at h <;> subst h <;> simp_all [Pc.waits]

theorem WI.ready_notifyOne {s : State V} (h : WI s) (i : Side) (g : Fid) :
    (s.c.ready g = true → (Verif.notifyOne s.c (s.q i)).1.ready g = true) ∧
    ((Verif.notifyOne s.c (s.q i)).1.ready g = true → s.c.ready g = true ∨ (s.pc g).waits = some i) := by
  obtain ⟨gh, h⟩ := h
  have : (Verif.notifyOne s.c (s.q i)).1.ready g =
      (s.c.ready g || decide ((liveList s.c (s.q i)).head? = some g)) := h.ready_notifyOne (some i) g
  rw [this]
  refine ⟨by simp_all, ?_⟩
  rw [Bool.or_eq_true, decide_eq_true_eq]
  rintro (h1 | h1)
  · exact Or.inl h1
  · right
    have hm : g ∈ liveList s.c (qq s.q gh (some i)) := List.mem_of_mem_head? (by simpa [qq] using h1)
    obtain ⟨r, h1, h2, h3, h4⟩ := h.mem_live_iff.1 hm
    exact reg_waits h1 h2 h3

/-- A notification reaches somebody, or nobody is blocked. -/
theorem WI.notifyOne_some {s : State V} (h : WI s) (i : Side) :
    (∃ g, (s.pc g).waits = some i ∧ (Verif.notifyOne s.c (s.q i)).1.ready g = true) ∨
    ∀ g, (s.pc g).waits = some i → s.c.ready g = true := by
  obtain ⟨gh, h⟩ := h
  cases hl : liveList s.c (qq s.q gh (some i)) with
  | nil =>
    right
    intro g hg
    obtain ⟨r, h1, h2, h3⟩ := waits_reg hg
    cases hr : s.c.ready g
    · have := h.mem_live_iff.2 ⟨r, h1, h2, h3, hr⟩
      simp [hl] at this
    · rfl
  | cons g l =>
    left
    have hm : g ∈ liveList s.c (qq s.q gh (some i)) := by simp [hl]
    obtain ⟨r, h1, h2, h3, h4⟩ := h.mem_live_iff.1 hm
    refine ⟨g, reg_waits h1 h2 h3, ?_⟩
    have := h.ready_notifyOne (some i) g
    simp only [qq] at this
    rw [this]
    simp [qq] at hl
    simp [hl]

theorem WI.ready_notifyAll {s : State V} (h : WI s) (i : Side) (g : Fid) :
    (s.c.ready g = true → (Verif.notifyAll s.c (s.q i)).1.ready g = true) ∧
    ((s.pc g).waits = some i → (Verif.notifyAll s.c (s.q i)).1.ready g = true) := by
  obtain ⟨gh, h⟩ := h
  have := h.ready_notifyAll (some i) g
  simp only [qq] at this
  rw [this]
  refine ⟨by simp_all, ?_⟩
  intro hg
  obtain ⟨r, h1, h2, h3⟩ := waits_reg hg
  cases hr : s.c.ready g
  · have := h.mem_live_iff.2 ⟨r, h1, h2, h3, hr⟩
    simp only [qq] at this
    simp [this]
  · simp

theorem wake_ready_mono (c : Ctxs) (w : Waker) (g : Fid) (h : c.ready g = true) : (wake c w).1.ready g = true := by
  simp only [wake]; split <;> simp [upd_apply, h]

theorem wake_epoch (c : Ctxs) (w : Waker) (g : Fid) :
    (wake c w).1.epoch g = if g = w.ctx ∧ c.epoch w.ctx = w.ep then w.ep + 1 else c.epoch g := by
  simp only [wake]; split <;> simp_all [upd_apply]

/-- What a step of `f` leaves alone. -/
theorem run_frame {s s' : State V} {o : List (Obs V)} {f : Fid} {b : Bool} (hw : WI s) (hs : run s f b = some (s', o)) :
    s'.calls = s.calls ∧ s'.now = s.now ∧ ∀ g, g ≠ f → s'.pc g = s.pc g ∧ (s.c.ready g = true → s'.c.ready g = true) := by
  have a1 := fun i g => (hw.ready_notifyOne i g).1
  have a2 := fun i g => (hw.ready_notifyAll i g).1
  ucases s, f, hs, hp
  all_goals
    refine ⟨rfl, rfl, fun g hg => ⟨?_, ?_⟩⟩
  all_goals first
    | rfl
    | exact id
    | exact upd_other _ _ hg
    | exact a1 _ g
    | exact a2 _ g
    | exact wake_ready_mono _ _ g
    | (simp only [consumeReady, upd_apply, if_neg hg]; exact id)
    | (simp only [upd_apply, if_neg hg])

/-- No move of a value has thrown. -/
def NoThrow (tr : List (Obs V)) : Prop := ∀ f k op t, Obs.ret f k op .failed t ∉ tr

theorem NoThrow.left {a b : List (Obs V)} (h : NoThrow (a ++ b)) : NoThrow a := fun f k op t hm => h f k op t (by simp [hm])
theorem NoThrow.right {a b : List (Obs V)} (h : NoThrow (a ++ b)) : NoThrow b := fun f k op t hm => h f k op t (by simp [hm])

/-- An offer that nobody has answered is in the slot or being fetched. -/
def Off (s : State V) : Prop :=
  ∀ f ep, (s.pc f).offering = some ep → s.c.epoch f = ep →
    s.slot = some ⟨f, s.calls f⟩ ∨ ∃ g, (s.pc g).held = some ⟨f, s.calls f⟩

/-- The waker in a slot, once used, no longer fits. -/
theorem deref_woken {s : State V} {r : Ref} {v : V} {e ep : Nat} (hx : (s.pc r.f).offering = some ep)
    (hd : s.deref r = some (v, some e)) : (wake s.c ⟨r.f, e⟩).1.epoch r.f ≠ ep := by
  have : e = ep := by
    simp only [State.deref] at hd
    split at hd
    case isFalse => cases hd
    cases hq : s.pc r.f <;> simp only [hq, Pc.offering, frameOf, Option.some.injEq, Prod.mk.injEq, reduceCtorEq] at hx hd <;>
      omega
  subst this
  rw [wake_epoch]; split
  · simp
  · rename_i h; simpa using h

theorem off_run {s s' : State V} {o : List (Obs V)} {f : Fid} {b : Bool} (hw : WI s) (h : Off s) (hs : run s f b = some (s', o))
    (hnt : NoThrow o) : Off s' := by
  have n1 : ∀ i g ep, (s.pc g).offering = some ep → (notifyOne s.c (s.q i)).1.epoch g = s.c.epoch g := by
    intro i g ep hg
    apply hw.frame_notifyOne
    cases hq : s.pc g <;> simp only [hq, Pc.offering, reduceCtorEq] at hg <;> simp [regOf]
  have nA : ∀ i g ep, (s.pc g).offering = some ep → (notifyAll s.c (s.q i)).1.epoch g = s.c.epoch g := by
    intro i g ep hg
    apply hw.frame_notifyAll
    cases hq : s.pc g <;> simp only [hq, Pc.offering, reduceCtorEq] at hg <;> simp [regOf]
  have hfr := run_frame hw hs
  -- holders other than `f` keep what they hold
  have keep : ∀ r g, (s.pc g).held = some r → (∀ r', (s.pc f).held = some r' → (s'.pc f).held = some r') →
      ∃ g, (s'.pc g).held = some r := by
    intro r g hg h1
    by_cases hgf : g = f
    · subst hgf; exact ⟨g, h1 _ hg⟩
    · exact ⟨g, by rw [(hfr.2.2 g hgf).1]; exact hg⟩
  intro x ep hx hep
  by_cases hxf : x = f
  · subst hxf
    have hh := h x
    have nn1 := fun i => n1 i x
    clear n1 nA hfr
    ucases s, x, hs, hp
    all_goals simp only [upd_same, Pc.offering, hp, reduceCtorEq, Option.some.injEq] at hx
    · exact Or.inl rfl
    · subst hx
      simp only [nn1 .cons _ (by simp [hp, Pc.offering]; rfl)] at hep
      rcases hh _ (by simp [hp, Pc.offering]) hep with h1 | ⟨g, h1⟩
      · exact Or.inl h1
      · exact Or.inr (keep _ g h1 (by simp [hp, Pc.held]))
  · rw [(hfr.2.2 x hxf).1] at hx
    have hh := h x ep hx
    rw [hfr.1]
    have keep' : ∀ g, (s.pc g).held = some ⟨x, s.calls x⟩ → (∀ r', (s.pc f).held = some r' → r'.f = x → (s'.pc f).held = some r') →
        ∃ g, (s'.pc g).held = some ⟨x, s.calls x⟩ := by
      intro g hg h1
      by_cases hgf : g = f
      · subst hgf; exact ⟨g, h1 _ hg rfl⟩
      · exact ⟨g, by rw [(hfr.2.2 g hgf).1]; exact hg⟩
    -- the general case: the slot and what `f` holds stay
    have hold : s'.c.epoch x = s.c.epoch x → s'.slot = s.slot →
        (∀ r', (s.pc f).held = some r' → r'.f = x → (s'.pc f).held = some r') →
        s'.slot = some ⟨x, s.calls x⟩ ∨ ∃ g, (s'.pc g).held = some ⟨x, s.calls x⟩ := by
      intro h0 h2 h3
      rcases hh (h0 ▸ hep) with h1 | ⟨g, h1⟩
      · exact Or.inl (h2 ▸ h1)
      · exact Or.inr (keep' g h1 h3)
    have nn1 := fun i => n1 i x ep hx
    have nnA := fun i => nA i x ep hx
    clear keep n1 nA hfr
    ucases s, f, hs, hp
    all_goals try (refine hold ?_ ?_ ?_ <;> simp [Pc.held, consumeReady, hp, hxf, nn1, nnA] <;> done)
    · rename_i hsl
      simp only [upd_apply, if_neg hxf] at hep
      rcases hh hep with h1 | ⟨g, h1⟩
      · simp [hsl] at h1
      · exact Or.inr (keep' g h1 (by simp [hp, Pc.held]))
    · rename_i hsl
      rcases hh hep with h1 | ⟨g, h1⟩
      · rw [hsl] at h1; simp only [Option.some.injEq, Ref.mk.injEq] at h1; exact absurd h1.1.symm hxf
      · exact Or.inr (keep' g h1 (by simp [hp, Pc.held]))
    · rename_i r hsl
      rcases hh hep with h1 | ⟨g, h1⟩
      · rw [hsl] at h1; simp only [Option.some.injEq] at h1
        exact Or.inr ⟨f, by simp [Pc.held, h1]⟩
      · exact Or.inr (keep' g h1 (by simp [hp, Pc.held]))
    · exact (hnt f (s.calls f) _ s.now (List.mem_singleton.2 rfl)).elim
    · rename_i r _ _ v' e hd
      by_cases hxr : x = r.f
      · subst hxr; exact absurd hep (deref_woken hx hd)
      · exact hold (wake_epoch_ne s.c ⟨r.f, e⟩ hxr).1 rfl (by simp [hp, Pc.held]; exact fun h => absurd h.symm hxr)
    · rename_i r _ v' e hd
      by_cases hxr : x = r.f
      · subst hxr; exact absurd hep (deref_woken hx hd)
      · exact hold (wake_epoch_ne s.c ⟨r.f, e⟩ hxr).1 rfl (by simp [hp, Pc.held])

/-- What the other events do. -/
theorem other_frame {s s' : State V} {o : List (Obs V)} {e : Event V} (hs : step s e = some (s', o)) :
    (∃ f b, (e = .run f ∨ e = .fail f) ∧ run s f b = some (s', o)) ∨
    (s'.slot = s.slot ∧ s'.closed = s.closed ∧ s'.q = s.q ∧ s'.lk = s.lk ∧ s'.ub = s.ub ∧ s.ub = false ∧
      (∀ g, s.c.ready g = true → s'.c.ready g = true) ∧
      (∀ g ep, (s.pc g).offering = some ep → s'.c.epoch g = ep → s.c.epoch g = ep) ∧
      (∀ g, (s.pc g).offering = none → sleepOf (s.pc g) = none → s'.c.ready g = s.c.ready g) ∧
      ((∃ f op, s.pc f = .idle ∧ s'.pc = upd s.pc f (startOf op) ∧ s'.calls = upd s.calls f (s.calls f + 1) ∧
        s'.c = s.c ∧ o = [.called f (s.calls f + 1) op]) ∨
       (s'.pc = s.pc ∧ s'.calls = s.calls ∧ o = [] ∧
        ∀ g, sleepOf (s.pc g) = none → s'.c.ready g = s.c.ready g ∧ (s.pc g ≠ .idle → s'.c.epoch g = s.c.epoch g)))) := by
  simp only [step] at hs
  split at hs
  · cases hs
  rename_i hub
  cases e with
  | run f => exact Or.inl ⟨f, false, Or.inl rfl, hs⟩
  | fail f => exact Or.inl ⟨f, true, Or.inr rfl, hs⟩
  | call f op =>
    right
    simp only [stepOk] at hs
    split at hs <;> simp only [Option.some.injEq, Prod.mk.injEq, reduceCtorEq] at hs
    rename_i hp
    obtain ⟨rfl, rfl⟩ := hs
    exact ⟨rfl, rfl, rfl, rfl, rfl, by simpa using hub, fun _ => id, fun _ _ _ => id, fun _ _ _ => rfl, Or.inl ⟨f, op, hp, rfl, rfl, rfl, rfl⟩⟩
  | timer f =>
    right
    simp only [stepOk] at hs
    split at hs
    case h_2 => cases hs
    rename_i ep d hsl
    split at hs <;> simp only [Option.some.injEq, Prod.mk.injEq, reduceCtorEq] at hs
    obtain ⟨rfl, rfl⟩ := hs
    have key : ∀ g, sleepOf (s.pc g) = none →
        (wake s.c ⟨f, ep⟩).1.ready g = s.c.ready g ∧ (wake s.c ⟨f, ep⟩).1.epoch g = s.c.epoch g := by
      intro g hg
      have : g ≠ f := by rintro rfl; simp [hsl] at hg
      have := wake_epoch_ne s.c ⟨f, ep⟩ this
      exact ⟨this.2, this.1⟩
    refine ⟨rfl, rfl, rfl, rfl, rfl, by simpa using hub, fun g => wake_ready_mono _ _ g, ?_, fun g _ hg => (key g hg).1, Or.inr ⟨rfl, rfl, rfl, fun g hg => ⟨(key g hg).1, fun _ => (key g hg).2⟩⟩⟩
    intro g e' hg he
    simp only [wake_epoch] at he
    split at he
    · rename_i hgf
      obtain ⟨rfl, h2⟩ := hgf
      have : e' = ep := by
        cases hp : s.pc g <;> simp only [hp, Pc.offering, sleepOf, Option.some.injEq, reduceCtorEq, Option.map_eq_some_iff, Prod.mk.injEq] at hg hsl
        obtain ⟨_, _, h3, _⟩ := hsl; omega
      omega
    · exact he
  | tick n =>
    right
    simp only [stepOk, Option.some.injEq, Prod.mk.injEq] at hs
    obtain ⟨rfl, rfl⟩ := hs
    exact ⟨rfl, rfl, rfl, rfl, rfl, by simpa using hub, fun _ => id, fun _ _ _ => id, fun _ _ _ => rfl, Or.inr ⟨rfl, rfl, rfl, fun _ _ => ⟨rfl, fun _ => rfl⟩⟩⟩
  | elsewhere f n =>
    right
    simp only [stepOk] at hs
    split at hs <;> simp only [Option.some.injEq, Prod.mk.injEq, reduceCtorEq] at hs
    rename_i hp
    obtain ⟨rfl, rfl⟩ := hs
    refine ⟨rfl, rfl, rfl, rfl, rfl, by simpa using hub, fun _ => id, ?_, fun _ _ _ => rfl, Or.inr ⟨rfl, rfl, rfl, fun g _ => ⟨rfl, ?_⟩⟩⟩
    · intro g ep hg he
      have : g ≠ f := by rintro rfl; simp [hp, Pc.offering] at hg
      simpa [upd_apply, this] using he
    · intro hg
      have : g ≠ f := by rintro rfl; exact hg hp
      simp [this]

theorem off_step {s s' : State V} {o : List (Obs V)} {e : Event V} (hw : WI s) (h : Off s) (hs : step s e = some (s', o))
    (hnt : NoThrow o) : Off s' := by
  rcases other_frame hs with ⟨f, b, -, h1⟩ | ⟨h1, h2, -, -, -, -, h5, h6, -, h7⟩
  · exact off_run hw h h1 hnt
  · rcases h7 with ⟨f, op, hp, h8, h9, h10, -⟩ | ⟨h8, h9, -, -⟩
    · intro x ep hx hep
      have hxf : x ≠ f := by
        rintro rfl; rw [h8] at hx; simp [(startOf_facts op).2.2.2.2.1] at hx
      rw [h8, upd_other _ _ hxf] at hx
      rw [h9, upd_other _ _ hxf, h1, h8]
      rcases h x ep hx (h10 ▸ hep) with h | ⟨g, h⟩
      · exact Or.inl h
      · refine Or.inr ⟨g, ?_⟩
        have : g ≠ f := by rintro rfl; simp [hp, Pc.held] at h
        rw [upd_other _ _ this]; exact h
    · intro x ep hx hep
      rw [h8] at hx
      rw [h9, h1, h8]
      exact h x ep hx (h6 x ep hx hep)

theorem reach_off {s : State V} {tr : List (Obs V)} (h : Reach step init s tr) : NoThrow tr → Off s :=
  Reach.inv (fun s tr => NoThrow tr → Off s) (fun _ => by simp [Off, init, Pc.offering])
    (fun _ _ _ _ _ hr hi hs hn => off_step (reach_w hr).1 (hi hn.left) hs hn.right) h

end Verif.Unbuf
