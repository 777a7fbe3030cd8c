import Verif.UnbufferedLive

/-!
# Unbuffered channel without `close` and without timed pushes
-/

namespace Verif.Unbuf

variable {V : Type}

/-- Neither `close` nor a timed push. -/
def Op.calm : Op V → Bool
  | .close | .push _ (some _) => false
  | _ => true

def CalmPc (s : State V) : Prop :=
  ∀ f, (∀ op, opOf (s.pc f) = some op → op.calm = true) ∧ ∀ v dl ep, s.pc f ≠ .slotLate v dl ep

/-- The producer of `r` still waits for an answer. -/
def Alive (s : State V) (r : Ref) : Prop :=
  s.calls r.f = r.k ∧ ∃ ep, (s.pc r.f).offering = some ep ∧ s.c.epoch r.f = ep

structure CA (s : State V) : Prop where
  slot : ∀ r, s.slot = some r → Alive s r
  held : ∀ g r, (s.pc g).held = some r → Alive s r ∧ s.slot ≠ some r
  uniq : ∀ g g' r, (s.pc g).held = some r → (s.pc g').held = some r → g = g'
  ub   : s.ub = false

theorem alive_deref {s : State V} {r : Ref} (h : Alive s r) : ∃ v ep, s.deref r = some (v, some ep) := by
  obtain ⟨h1, ep, h2, h3⟩ := h
  cases hp : s.pc r.f <;> simp only [hp, Pc.offering, reduceCtorEq] at h2 <;> simp [State.deref, h1, hp, frameOf]

theorem alive_run {s s' : State V} {o : List (Obs V)} {f : Fid} {b : Bool} (hw : WI s) (hc : CalmPc s) {r : Ref} (h : Alive s r)
    (hs : run s f b = some (s', o)) (hne : ∀ p v, s.pc f ≠ .popWake p r v) : Alive s' r := by
  obtain ⟨h1, ep, h2, h3⟩ := h
  have hfr := run_frame hw hs
  have n1 : ∀ i, (notifyOne s.c (s.q i)).1.epoch r.f = s.c.epoch r.f := by
    intro i
    apply hw.frame_notifyOne
    cases hq : s.pc r.f <;> simp only [hq, Pc.offering, reduceCtorEq] at h2 <;> simp [regOf]
  refine ⟨by rw [hfr.1]; exact h1, ep, ?_⟩
  have hcf := (hc f).1
  have hlt := (hc f).2
  by_cases hf : f = r.f
  · subst hf
    have hrd : s.c.ready r.f = true → False := by
      intro hr
      obtain ⟨gh, hw⟩ := hw
      cases hq : s.pc r.f <;> simp only [hq, Pc.offering, reduceCtorEq, Option.some.injEq] at h2
      all_goals
        have := (hw.ready_iff (f := r.f) (r := ⟨none, _, _, false⟩) (by simp [hq, regOf]; exact ⟨rfl, rfl⟩) rfl).1 hr
        simp only at this; omega
    ucases s, r.f, hs, hp
    all_goals simp only [hp, Pc.offering, reduceCtorEq, Option.some.injEq] at h2
    · simp [Pc.offering, h2, n1, h3]
    all_goals exact (hrd (by assumption)).elim
  · rw [(hfr.2.2 r.f (Ne.symm hf)).1]
    refine ⟨h2, ?_⟩
    clear hfr
    ucases s, f, hs, hp
    all_goals first
      | exact h3
      | (simp only [n1]; exact h3)
      | (simp only [consumeReady]; exact h3)
      | (simp [hp, opOf, Op.calm] at hcf; done)
      | (simp only [upd_apply, if_neg (Ne.symm hf)]; exact h3)
      | skip
    · rename_i p r' v _ v' e hd
      have hne' : r.f ≠ r'.f := by
        intro h4
        simp only [State.deref] at hd
        split at hd
        · rename_i hk
          refine hne p v ?_
          rw [hp]; congr 1
          cases r; cases r'; simp_all
        · cases hd
      simp only [(wake_epoch_ne s.c ⟨r'.f, e⟩ hne').1]; exact h3

theorem ca_run {s s' : State V} {o : List (Obs V)} {f : Fid} {b : Bool} (hw : WI s) (hc : CalmPc s) (h : CA s)
    (hs : run s f b = some (s', o)) : CA s' := by
  have hfr := run_frame hw hs
  have hal := fun r => alive_run (r := r) hw hc (hs := hs)
  have hal' : ∀ r, Alive s r → (s.pc f).held ≠ some r → Alive s' r := by
    intro r h1 h2
    exact hal r h1 (fun p v h => h2 (by simp [h, Pc.held]))
  have hcf := (hc f).1
  have hlt := (hc f).2
  obtain ⟨c1, c2, c3, c4⟩ := h
  -- steps that change neither the slot nor what `f` holds
  have same : s'.slot = s.slot → (s'.pc f).held = (s.pc f).held → s'.ub = s.ub → (∀ p r v, s.pc f ≠ .popWake p r v) → CA s' := by
    intro e1 e2 e3 e4
    have hh : ∀ g, (s'.pc g).held = (s.pc g).held := by
      intro g; by_cases hg : g = f
      · subst hg; exact e2
      · rw [(hfr.2.2 g hg).1]
    refine ⟨?_, ?_, ?_, by rw [e3]; exact c4⟩
    · intro r hr; exact hal r (c1 r (e1 ▸ hr)) (fun p v => e4 p r v)
    · intro g r hg; rw [hh] at hg; rw [e1]; exact ⟨hal r (c2 g r hg).1 (fun p v => e4 p r v), (c2 g r hg).2⟩
    · intro g g' r h1 h2; rw [hh] at h1 h2; exact c3 g g' r h1 h2
  have hoth : ∀ g, g ≠ f → (s'.pc g).held = (s.pc g).held := fun g hg => by rw [(hfr.2.2 g hg).1]
  clear hfr
  ucases s, f, hs, hp
  all_goals try (refine same ?_ ?_ ?_ ?_ <;> simp [Pc.held, hp] <;> done)
  all_goals try (simp [hp, opOf, Op.calm] at hcf; done)
  all_goals try exact absurd hp (hlt _ _ _)
  · -- a new offer
    rename_i v dl _ hsl
    have hnew : ∀ g r, (s.pc g).held = some r → r ≠ ⟨f, s.calls f⟩ := by
      rintro g r hg rfl
      obtain ⟨-, ep, h2, -⟩ := (c2 g _ hg).1
      simp [hp, Pc.offering] at h2
    have hh : ∀ g, (upd s.pc f (.pushNotify v dl (s.c.epoch f + 1)) g).held = (s.pc g).held := by
      intro g; by_cases hg : g = f
      · subst hg; simp [hp, Pc.held]
      · simp [hg]
    refine ⟨?_, ?_, ?_, c4⟩
    · intro r hr
      simp only [Option.some.injEq] at hr
      subst hr
      exact ⟨rfl, s.c.epoch f + 1, by simp [Pc.offering]⟩
    · intro g r hg
      simp only [hh] at hg
      refine ⟨hal' r (c2 g r hg).1 (by simp [hp, Pc.held]), ?_⟩
      simp only [ne_eq, Option.some.injEq]
      exact fun h => hnew g r hg h.symm
    · intro g g' r h1 h2
      simp only [hh] at h1 h2
      exact c3 g g' r h1 h2
  · -- an offer is taken
    rename_i p _ r hsl
    have hh : ∀ g x, (upd s.pc f (.popNotify p r) g).held = some x → (g = f ∧ x = r) ∨ (g ≠ f ∧ (s.pc g).held = some x) := by
      intro g x; by_cases hg : g = f
      · subst hg; simp only [upd_same, Pc.held, Option.some.injEq]; exact fun h => Or.inl ⟨trivial, h.symm⟩
      · simp only [upd_other _ _ hg]; exact fun h => Or.inr ⟨hg, h⟩
    refine ⟨by simp, ?_, ?_, c4⟩
    · intro g x hg
      refine ⟨hal' x ?_ (by simp [hp, Pc.held]), by simp⟩
      rcases hh g x hg with ⟨rfl, rfl⟩ | ⟨h1, h2⟩
      · exact c1 _ hsl
      · exact (c2 g x h2).1
    · intro g g' x h1 h2
      rcases hh g x h1 with ⟨rfl, rfl⟩ | ⟨h3, h4⟩ <;> rcases hh g' _ h2 with ⟨rfl, h5⟩ | ⟨h5, h6⟩
      · rfl
      · exact absurd hsl (c2 g' _ h6).2
      · subst h5; exact absurd hsl (c2 g _ h4).2
      · exact c3 g g' x h4 h6
  · -- moving the value throws
    have hh : ∀ g x, (upd s.pc f .idle g).held = some x → g ≠ f ∧ (s.pc g).held = some x := by
      intro g x; by_cases hg : g = f
      · subst hg; simp [Pc.held]
      · simp only [upd_other _ _ hg]; exact fun h => ⟨hg, h⟩
    have hq : ∀ r p v, s.pc f ≠ .popWake p r v := by simp [hp]
    refine ⟨fun x hx => hal x (c1 x hx) (hq x), ?_, ?_, c4⟩
    · intro g x hg
      obtain ⟨-, h2⟩ := hh g x hg
      exact ⟨hal x (c2 g x h2).1 (hq x), (c2 g x h2).2⟩
    · intro g g' x h1 h2
      exact c3 g g' x (hh g x h1).2 (hh g' x h2).2
  · rename_i p r _ hd
    obtain ⟨v, ep, h1⟩ := alive_deref (c2 f r (by simp [hp, Pc.held])).1
    simp [hd] at h1
  · -- the producer is woken
    rename_i p r v _ v' e hd
    have hr : (s.pc f).held = some r := by simp [hp, Pc.held]
    have hh : ∀ g x, (upd s.pc f .idle g).held = some x → g ≠ f ∧ (s.pc g).held = some x := by
      intro g x; by_cases hg : g = f
      · subst hg; simp [Pc.held]
      · simp only [upd_other _ _ hg]; exact fun h => ⟨hg, h⟩
    refine ⟨?_, ?_, ?_, c4⟩
    · intro x hx
      exact hal' x (c1 x hx) (fun h => (c2 f x h).2 hx)
    · intro g x hg
      obtain ⟨h1, h2⟩ := hh g x hg
      exact ⟨hal' x (c2 g x h2).1 (fun h => h1 (c3 g f x h2 h)), (c2 g x h2).2⟩
    · intro g g' x h1 h2
      exact c3 g g' x (hh g x h1).2 (hh g' x h2).2
  · rename_i p r v _ hd
    obtain ⟨v, ep, h1⟩ := alive_deref (c2 f r (by simp [hp, Pc.held])).1
    exact absurd h1 (hd _ _)

theorem ca_step {s s' : State V} {o : List (Obs V)} {e : Event V} (hw : WI s) (hc : CalmPc s) (h : CA s)
    (hs : step s e = some (s', o)) : CA s' := by
  have hs0 := hs
  rcases other_frame hs with ⟨f, b, -, h1⟩ | ⟨h1, h2, -, -, hub, hub0, h5, h6, -, h7⟩
  · exact ca_run hw hc h h1
  · obtain ⟨c1, c2, c3, c4⟩ := h
    rcases h7 with ⟨f, op, hp, h8, h9, h10, -⟩ | ⟨h8, h9, -, h10⟩
    · have hh : ∀ g, (s'.pc g).held = (s.pc g).held := by
        intro g; rw [h8]; by_cases hg : g = f
        · subst hg; simp only [upd_same, hp, (startOf_facts op).2.2.2.1]; rfl
        · simp [hg]
      have hal : ∀ r, Alive s r → Alive s' r := by
        rintro r ⟨a1, ep, a2, a3⟩
        have hrf : r.f ≠ f := by intro h; rw [h, hp] at a2; simp [Pc.offering] at a2
        exact ⟨by rw [h9, upd_other _ _ hrf]; exact a1, ep, by rw [h8, upd_other _ _ hrf]; exact a2, by rw [h10]; exact a3⟩
      exact ⟨fun r hr => hal r (c1 r (h1 ▸ hr)), fun g r hg => by rw [hh] at hg; rw [h1]; exact ⟨hal r (c2 g r hg).1, (c2 g r hg).2⟩,
        fun g g' r a b => by rw [hh] at a b; exact c3 g g' r a b, by rw [hub, hub0]⟩
    · have hal : ∀ r, Alive s r → Alive s' r := by
        rintro r ⟨a1, ep, a2, a3⟩
        refine ⟨by rw [h9]; exact a1, ep, by rw [h8]; exact a2, ?_⟩
        have hsl : sleepOf (s.pc r.f) = none := by
          have hcal := (hc r.f).1
          cases hq : s.pc r.f <;> simp only [hq, Pc.offering, reduceCtorEq] at a2
          · rfl
          · rename_i v dl ep'
            have := hcal (.push v dl) (by simp [hq, opOf])
            cases dl <;> simp_all [Op.calm, sleepOf]
        rw [(h10 _ hsl).2 (by intro h; simp [h, Pc.offering] at a2)]; exact a3
      exact ⟨fun r hr => hal r (c1 r (h1 ▸ hr)), fun g r hg => by rw [h8] at hg; rw [h1]; exact ⟨hal r (c2 g r hg).1, (c2 g r hg).2⟩,
        fun g g' r a b => by rw [h8] at a b; exact c3 g g' r a b, by rw [hub, hub0]⟩

/-- What the calls observed say about where fibers are. -/
theorem reach_called [DecidableEq V] {s : State V} {tr : List (Obs V)} (h : Reach step init s tr) :
    (∀ f op, opOf (s.pc f) = some op → Obs.called f (s.calls f) op ∈ tr) ∧
    (s.closed = true → ∃ f, Obs.closedAt f ∈ tr) ∧
    (∀ f v dl ep, s.pc f = .slotLate v dl ep → ∃ d, dl = some d) ∧
    (∀ f v dl ep, s.pc f = .unlinkPush v dl ep → ∃ d, dl = some d) ∧
    (∀ f p ep, s.pc f = .unlinkPop p ep → ∃ d, p = .pop (some d)) := by
  obtain ⟨sp, h1, h2⟩ := reach_sim h
  have hsi : SI sp tr := by simpa using si_run si_init h1
  refine ⟨?_, ?_, ?_, ?_, ?_⟩
  · intro f op ho
    obtain ⟨ph, hc, -⟩ := h2.call ho
    exact (hsi.call f _ hc).1
  · intro hc; exact hsi.cl.1 (by rw [h2.hc, hc])
  · intro f v dl ep hp
    obtain ⟨ph, hc, hph⟩ := h2.call (f := f) (op := .push v dl) (by simp [hp, opOf])
    simp only [PhOK, hp] at hph
    obtain ⟨d, hd, -⟩ := hph
    exact ⟨d, hd⟩
  · intro f v dl ep hp
    obtain ⟨ph, hc, hph⟩ := h2.call (f := f) (op := .push v dl) (by simp [hp, opOf])
    simp only [PhOK, hp] at hph
    obtain ⟨-, d, hd, -⟩ := hph
    exact ⟨d, hd⟩
  · intro f p ep hp
    obtain ⟨ph, hc, hph⟩ := h2.call (f := f) (op := p.op) (by simp [hp, opOf])
    simp only [PhOK, hp] at hph
    obtain ⟨-, d, hd, -⟩ := hph
    exact ⟨d, hd⟩

/-- No call of `close` and no timed push has been made. -/
def CalmTr (tr : List (Obs V)) : Prop := ∀ f k op, Obs.called f k op ∈ tr → op.calm = true

theorem calmPc_of_tr [DecidableEq V] {s : State V} {tr : List (Obs V)} (h : Reach step init s tr) (hc : CalmTr tr) : CalmPc s := by
  obtain ⟨h1, h2, h3, -⟩ := reach_called h
  intro f
  have : ∀ op, opOf (s.pc f) = some op → op.calm = true := fun op ho => hc _ _ _ (h1 f op ho)
  refine ⟨this, ?_⟩
  intro v dl ep hp
  obtain ⟨d, rfl⟩ := h3 f v dl ep hp
  have := this (.push v (some d)) (by simp [hp, opOf])
  simp [Op.calm] at this

theorem reach_ca [DecidableEq V] {s : State V} {tr : List (Obs V)} (h : Reach step init s tr) : CalmTr tr → CA s := by
  refine Reach.inv (fun s tr => CalmTr tr → CA s) ?_ ?_ h
  · intro _; refine ⟨by simp [init], by simp [init, Pc.held], by simp [init, Pc.held], rfl⟩
  · intro s tr e s' o hr hi hs hc
    have hc' : CalmTr tr := fun f k op ho => hc f k op (List.mem_append_left _ ho)
    exact ca_step (reach_w hr).1 (calmPc_of_tr hr hc') (hi hc') hs

end Verif.Unbuf

namespace Verif.Unbuf

variable {V : Type}

/-! ## Nobody closes or gives up: who hunts for whom -/

/-- A consumer on its way to the slot. -/
def HuntC (s : State V) (g : Fid) : Prop :=
  (∃ p, s.pc g = .popStart p ∨ s.pc g = .popLock p ∨ s.pc g = .popLocked p ∨ ∃ ep, s.pc g = .unlinkPop p ep) ∨
  ((s.pc g).waits = some .cons ∧ s.c.ready g = true)

/-- A producer on its way to the slot. -/
def HuntP (s : State V) (g : Fid) : Prop :=
  (∃ v dl, s.pc g = .pushStart v dl ∨ s.pc g = .pushTry v dl ∨ s.pc g = .pushLock v dl ∨ s.pc g = .pushLocked v dl ∨
    ∃ ep, s.pc g = .unlinkPush v dl ep) ∨
  ((s.pc g).waits = some .prod ∧ s.c.ready g = true)

/-- Where blocked fibers and the other side could meet, somebody is on the way. -/
structure Hunt (s : State V) : Prop where
  c : ∀ r g, s.slot = some r → (s.pc g).waits = some .cons → s.c.ready g = false →
        (∃ v dl ep, s.pc r.f = .pushNotify v dl ep) ∨ ∃ h, HuntC s h
  p : ∀ g, s.slot = none → (s.pc g).waits = some .prod → s.c.ready g = false →
        (∃ h, HuntP s h) ∨ ∃ h p r, s.pc h = .popNotify p r

theorem hunt_run {s s' : State V} {o : List (Obs V)} {f : Fid} {b : Bool} (hw : WI s) (hcl : s.closed = false)
    (hpl : opOf (s.pc f) ≠ some .close) (hnt : ∀ k op t, Obs.ret f k op .timeout t ∉ o)
    (h : Hunt s) (hs : run s f b = some (s', o)) : Hunt s' := by
  have hfr := run_frame hw hs
  have hoc : ∀ g, g ≠ f → HuntC s g → HuntC s' g := by
    rintro g hg (⟨p, h1⟩ | ⟨h1, h2⟩)
    · left; exact ⟨p, by rw [(hfr.2.2 g hg).1]; exact h1⟩
    · right; rw [(hfr.2.2 g hg).1]; exact ⟨h1, (hfr.2.2 g hg).2 h2⟩
  have hop : ∀ g, g ≠ f → HuntP s g → HuntP s' g := by
    rintro g hg (⟨v, dl, h1⟩ | ⟨h1, h2⟩)
    · left; exact ⟨v, dl, by rw [(hfr.2.2 g hg).1]; exact h1⟩
    · right; rw [(hfr.2.2 g hg).1]; exact ⟨h1, (hfr.2.2 g hg).2 h2⟩
  -- readiness only grows, except for `f`
  have hbl : ∀ g i, g ≠ f → (s'.pc g).waits = some i → s'.c.ready g = false →
      (s.pc g).waits = some i ∧ s.c.ready g = false := by
    intro g i hg h1 h2
    rw [(hfr.2.2 g hg).1] at h1
    refine ⟨h1, ?_⟩
    cases hr : s.c.ready g
    · rfl
    · have := (hfr.2.2 g hg).2 hr; rw [h2] at this; cases this
  -- consumers: the slot keeps its content, `f` does not start waiting and goes on hunting if it did
  have conC : s'.slot = s.slot → (s'.pc f).waits ≠ some .cons → (HuntC s f → HuntC s' f) →
      (∀ v dl ep, s.pc f ≠ .pushNotify v dl ep) →
      ∀ r g, s'.slot = some r → (s'.pc g).waits = some .cons → s'.c.ready g = false →
        (∃ v dl ep, s'.pc r.f = .pushNotify v dl ep) ∨ ∃ h, HuntC s' h := by
    intro e1 e2 e3 e4 r g h1 h2 h3
    have hg : g ≠ f := by rintro rfl; exact e2 h2
    obtain ⟨a, b⟩ := hbl g _ hg h2 h3
    rcases h.c r g (e1 ▸ h1) a b with ⟨v, dl, ep, h4⟩ | ⟨x, h4⟩
    · left; exact ⟨v, dl, ep, by rw [(hfr.2.2 r.f (fun he => e4 v dl ep (he ▸ h4))).1]; exact h4⟩
    · right; by_cases hx : x = f
      · subst hx; exact ⟨x, e3 h4⟩
      · exact ⟨x, hoc x hx h4⟩
  have conP : s'.slot = s.slot → (s'.pc f).waits ≠ some .prod → (HuntP s f → HuntP s' f) →
      (∀ p r, s.pc f ≠ .popNotify p r) →
      ∀ g, s'.slot = none → (s'.pc g).waits = some .prod → s'.c.ready g = false →
        (∃ h, HuntP s' h) ∨ ∃ h p r, s'.pc h = .popNotify p r := by
    intro e1 e2 e3 e4 g h1 h2 h3
    have hg : g ≠ f := by rintro rfl; exact e2 h2
    obtain ⟨a, b⟩ := hbl g _ hg h2 h3
    rcases h.p g (e1 ▸ h1) a b with ⟨x, h4⟩ | ⟨x, p, r, h4⟩
    · left; by_cases hx : x = f
      · subst hx; exact ⟨x, e3 h4⟩
      · exact ⟨x, hop x hx h4⟩
    · right; exact ⟨x, p, r, by rw [(hfr.2.2 x (fun he => e4 p r (he ▸ h4))).1]; exact h4⟩
  have notif := hw.notifyOne_some
  ucases s, f, hs, hp
  all_goals try (simp [hcl] at *; done)
  all_goals try (simp [hp, opOf] at hpl; done)
  all_goals try (exact absurd (List.mem_singleton.2 rfl) (hnt _ _ _))
  all_goals try (
    refine ⟨conC ?_ ?_ ?_ ?_, conP ?_ ?_ ?_ ?_⟩ <;>
      simp [Pc.waits, HuntC, HuntP, hp] <;> done)
  · refine ⟨?_, by simp⟩
    intro r g hr _ _
    simp only [Option.some.injEq] at hr
    subst hr
    exact Or.inl ⟨_, _, _, upd_same _ _ _⟩
  · refine ⟨?_, conP rfl (by simp [Pc.waits]) (by simp [HuntP, hp, Pc.waits]) (by simp [hp])⟩
    intro r g _ h2 h3
    rcases notif .cons with ⟨x, h4, h5⟩ | h4
    · have hx : x ≠ f := by rintro rfl; simp [hp, Pc.waits] at h4
      exact Or.inr ⟨x, Or.inr ⟨by simp only [upd_other _ _ hx]; exact h4, h5⟩⟩
    · have hg : g ≠ f := by rintro rfl; simp [Pc.waits] at h2
      obtain ⟨a, b⟩ := hbl g _ hg h2 h3
      rw [h4 g a] at b; cases b
  · rename_i hsl
    exact ⟨conC rfl (by simp [Pc.waits]) (by simp [HuntC, hp, Pc.waits]) (by simp [hp]), by simp [hsl]⟩
  · refine ⟨by simp, ?_⟩
    intro g _ _ _
    exact Or.inr ⟨f, _, _, upd_same _ _ _⟩
  · refine ⟨conC rfl (by simp [Pc.waits]) (by simp [HuntC, hp, Pc.waits]) (by simp [hp]), ?_⟩
    intro g _ h2 h3
    rcases notif .prod with ⟨x, h4, h5⟩ | h4
    · have hx : x ≠ f := by rintro rfl; simp [hp, Pc.waits] at h4
      exact Or.inl ⟨x, Or.inr ⟨by simp only [upd_other _ _ hx]; exact h4, h5⟩⟩
    · have hg : g ≠ f := by rintro rfl; simp [Pc.waits] at h2
      obtain ⟨a, b⟩ := hbl g _ hg h2 h3
      rw [h4 g a] at b; cases b
  · rename_i hsl
    exact ⟨by simp [hsl], conP rfl (by simp [Pc.waits]) (by simp [HuntP, hp, Pc.waits]) (by simp [hp])⟩

theorem hunt_step {s s' : State V} {o : List (Obs V)} {e : Event V} (hw : WI s) (hcl : s.closed = false)
    (hpl : ∀ f, opOf (s.pc f) ≠ some .close) (hnt : ∀ f k op t, Obs.ret f k op .timeout t ∉ o)
    (h : Hunt s) (hs : step s e = some (s', o)) : Hunt s' := by
  rcases other_frame hs with ⟨f, b, -, h1⟩ | ⟨h1, h2, -, -, -, -, h5, -, -, h7⟩
  · exact hunt_run hw hcl (hpl f) (hnt f) h h1
  · rcases h7 with ⟨f, op, hp, h8, h9, h10, -⟩ | ⟨h8, h9, -, h10⟩
    · have hst : (startOf op).waits = none := by cases op <;> rfl
      have hpc : ∀ g, (s'.pc g).waits = (s.pc g).waits := by
        intro g; rw [h8]; by_cases hg : g = f
        · subst hg; rw [upd_same, hst, hp]; rfl
        · simp [hg]
      have hne : ∀ g p, s.pc g = p → p ≠ .idle → s'.pc g = p := by
        intro g p hg hne
        have : g ≠ f := by rintro rfl; exact hne (hg.symm.trans hp)
        rw [h8, upd_other _ _ this]; exact hg
      have hc : ∀ g, HuntC s g → HuntC s' g := by
        rintro g (⟨p, a | a | a | ⟨ep, a⟩⟩ | ⟨a, b⟩)
        · exact Or.inl ⟨p, Or.inl (hne _ _ a (by simp))⟩
        · exact Or.inl ⟨p, Or.inr (Or.inl (hne _ _ a (by simp)))⟩
        · exact Or.inl ⟨p, Or.inr (Or.inr (Or.inl (hne _ _ a (by simp))))⟩
        · exact Or.inl ⟨p, Or.inr (Or.inr (Or.inr ⟨ep, hne _ _ a (by simp)⟩))⟩
        · exact Or.inr ⟨by rw [hpc]; exact a, by rw [h10]; exact b⟩
      have hpp : ∀ g, HuntP s g → HuntP s' g := by
        rintro g (⟨p, dl, a | a | a | a | ⟨ep, a⟩⟩ | ⟨a, b⟩)
        · exact Or.inl ⟨p, dl, Or.inl (hne _ _ a (by simp))⟩
        · exact Or.inl ⟨p, dl, Or.inr (Or.inl (hne _ _ a (by simp)))⟩
        · exact Or.inl ⟨p, dl, Or.inr (Or.inr (Or.inl (hne _ _ a (by simp))))⟩
        · exact Or.inl ⟨p, dl, Or.inr (Or.inr (Or.inr (Or.inl (hne _ _ a (by simp)))))⟩
        · exact Or.inl ⟨p, dl, Or.inr (Or.inr (Or.inr (Or.inr ⟨ep, hne _ _ a (by simp)⟩)))⟩
        · exact Or.inr ⟨by rw [hpc]; exact a, by rw [h10]; exact b⟩
      refine ⟨?_, ?_⟩
      · intro r g a b c
        rcases h.c r g (h1 ▸ a) (hpc g ▸ b) (h10 ▸ c) with ⟨v, dl, ep, x⟩ | ⟨y, x⟩
        · exact Or.inl ⟨v, dl, ep, hne _ _ x (by simp)⟩
        · exact Or.inr ⟨y, hc y x⟩
      · intro g a b c
        rcases h.p g (h1 ▸ a) (hpc g ▸ b) (h10 ▸ c) with ⟨y, x⟩ | ⟨y, p, r, x⟩
        · exact Or.inl ⟨y, hpp y x⟩
        · exact Or.inr ⟨y, p, r, hne _ _ x (by simp)⟩
    · have hr : ∀ g, s'.c.ready g = false → s.c.ready g = false := by
        intro g hg
        cases hx : s.c.ready g
        · rfl
        · rw [h5 g hx] at hg; exact hg
      have hc : ∀ g, HuntC s g → HuntC s' g := by
        rintro g (a | ⟨a, b⟩)
        · left; rw [h8]; exact a
        · right; rw [h8]; exact ⟨a, h5 g b⟩
      have hpp : ∀ g, HuntP s g → HuntP s' g := by
        rintro g (a | ⟨a, b⟩)
        · left; rw [h8]; exact a
        · right; rw [h8]; exact ⟨a, h5 g b⟩
      refine ⟨?_, ?_⟩
      · intro r g a b c
        rw [h8] at b ⊢
        exact (h.c r g (h1 ▸ a) b (hr g c)).imp_right fun ⟨y, x⟩ => ⟨y, hc y x⟩
      · intro g a b c
        rw [h8] at b ⊢
        exact (h.p g (h1 ▸ a) b (hr g c)).imp_left fun ⟨y, x⟩ => ⟨y, hpp y x⟩

/-- No call of `close`, and no call has returned `timeout`. -/
def KeenTr (tr : List (Obs V)) : Prop :=
  (∀ f k, Obs.called f k .close ∉ tr) ∧ ∀ f k op t, Obs.ret f k op .timeout t ∉ tr

theorem reach_hunt [DecidableEq V] {s : State V} {tr : List (Obs V)} (h : Reach step init s tr) : KeenTr tr → Hunt s := by
  refine Reach.inv (fun s tr => KeenTr tr → Hunt s) ?_ ?_ h
  · intro _; exact ⟨by simp [init], by simp [init, Pc.waits]⟩
  · intro s tr e s' o hr hi hs hc
    have hc' : KeenTr tr := ⟨fun f k ho => hc.1 f k (List.mem_append_left _ ho),
      fun f k op t ho => hc.2 f k op t (List.mem_append_left _ ho)⟩
    obtain ⟨h1, h2, -⟩ := reach_called hr
    refine hunt_step (reach_w hr).1 ?_ ?_ ?_ (hi hc') hs
    · cases hcl : s.closed
      · rfl
      · obtain ⟨f, hf⟩ := h2 hcl
        obtain ⟨sp, h6, -⟩ := reach_sim hr
        have hsi : SI sp tr := by simpa using si_run si_init h6
        obtain ⟨k, hk⟩ := hsi.clc f hf
        exact absurd hk (hc'.1 f k)
    · intro f hf; exact hc'.1 _ _ (h1 f _ hf)
    · intro f k op t ho; exact hc.2 f k op t (List.mem_append_right _ ho)

/-! ## When nobody can run -/

/-- Nobody holds a lock when nobody can run. -/
theorem stuck_locks {s : State V} (h : PI s) (hs : ∀ f, run s f = none) : ∀ i, s.lk i = none := by
  have hc : s.lk .cons = none := by
    cases hl : s.lk .cons with
    | none => rfl
    | some g =>
      have hg := (h.lkc g).1 hl
      have := hs g
      cases hp : s.pc g <;> simp only [hp, Pc.holdsCons, reduceCtorEq] at hg
      simp only [run, hp] at this
      split at this <;> cases this
  have hp : s.lk .prod = none := by
    cases hl : s.lk .prod with
    | none => rfl
    | some g =>
      have hg := (h.lkp g).1 hl
      have := hs g
      cases hp : s.pc g <;> simp only [hp, Pc.holdsProd, reduceCtorEq] at hg
      · simp only [run, hp] at this
        split at this <;> cases this
      · simp [run, hp, hc] at this
  intro i; cases i <;> assumption

/-- Everybody is idle or suspended when nobody can run. -/
theorem stuck_cases {s : State V} (h : PI s) (hs : ∀ f, run s f = none) (f : Fid) :
    s.pc f = .idle ∨ (s.c.ready f = false ∧ ((∃ v dl ep, s.pc f = .slotWait v dl ep) ∨ (∃ v dl ep, s.pc f = .waitPush v dl ep) ∨
      ∃ p ep, s.pc f = .waitPop p ep)) := by
  have hl := stuck_locks h hs
  have hf := hs f
  cases hp : s.pc f <;> simp only [run, hp, hl, State.resume, State.unlink] at hf <;> simp
  all_goals (repeat' split at hf) <;> simp_all

end Verif.Unbuf
