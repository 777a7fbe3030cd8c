import Verif.UnbufferedCalm

/-!
# Unbuffered channel: what `close` reaches
-/

namespace Verif.Unbuf

variable {V : Type}

/-- A closer that has not yet released the producers. -/
def Pc.preProd : Pc V → Bool
  | .closeLoad | .closeWake _ | .closeProd => true
  | _ => false

/-- Once the channel is closed, whoever is blocked still has a closer on the way. -/
structure CE (s : State V) : Prop where
  e1 : s.closed = true → ∀ f ep, (s.pc f).offering = some ep → s.c.epoch f = ep → s.slot = some ⟨f, s.calls f⟩ →
        ∃ g, s.pc g = .closeLoad ∨ s.pc g = .closeWake ⟨f, s.calls f⟩
  e2 : s.closed = true → ∀ f, (s.pc f).holdsProd = true ∧ s.pc f ≠ .closeCons ∨
        ((s.pc f).waits = some .prod ∧ s.c.ready f = false) → ∃ g, (s.pc g).preProd = true
  e3 : s.closed = true → ∀ f, (s.pc f).holdsCons = true ∨ ((s.pc f).waits = some .cons ∧ s.c.ready f = false) →
        ∃ g, (s.pc g).closing = true

theorem ce_run {s s' : State V} {o : List (Obs V)} {f : Fid} {b : Bool} (hw : WI s) (hpi : PI s)
    (hlate : s.closed = true → ∀ v dl, s.pc f = .pushTry v dl → s.slot ≠ none) (h : CE s) (hs : run s f b = some (s', o)) :
    CE s' := by
  have hfr := run_frame hw hs
  have n1 : ∀ i g ep, (s.pc g).offering = some ep → (notifyOne s.c (s.q i)).1.epoch g = s.c.epoch g := by
    intro i g ep hg
    apply hw.frame_notifyOne
    cases hq : s.pc g <;> simp only [hq, Pc.offering, reduceCtorEq] at hg <;> simp [regOf]
  have nA : ∀ i g ep, (s.pc g).offering = some ep → (notifyAll s.c (s.q i)).1.epoch g = s.c.epoch g := by
    intro i g ep hg
    apply hw.frame_notifyAll
    cases hq : s.pc g <;> simp only [hq, Pc.offering, reduceCtorEq] at hg <;> simp [regOf]
  obtain ⟨e1, e2, e3⟩ := h
  have hbl : ∀ g i, g ≠ f → (s'.pc g).waits = some i → s'.c.ready g = false →
      (s.pc g).waits = some i ∧ s.c.ready g = false := by
    intro g i hg h1 h2
    rw [(hfr.2.2 g hg).1] at h1
    refine ⟨h1, ?_⟩
    cases hr : s.c.ready g
    · rfl
    · have := (hfr.2.2 g hg).2 hr; rw [h2] at this; cases this
  -- `f` is no closer, does not place anything, and if it blocks or locks it was locked before
  have k1 : s'.closed = s.closed → s'.slot = s.slot ∨ s'.slot = none →
      (∀ g ep, (s'.pc g).offering = some ep → s'.c.epoch g = ep → (s.pc g).offering = some ep ∧ s.c.epoch g = ep) →
      (s.pc f).closing = false →
      s'.closed = true → ∀ f ep, (s'.pc f).offering = some ep → s'.c.epoch f = ep → s'.slot = some ⟨f, s'.calls f⟩ →
        ∃ g, s'.pc g = .closeLoad ∨ s'.pc g = .closeWake ⟨f, s'.calls f⟩ := by
    intro a1 a2 a3 a4 hc x ep hx hep hsl
    rw [hfr.1] at hsl ⊢
    have a2' : s.slot = some ⟨x, s.calls x⟩ := by
      rcases a2 with a2 | a2
      · rw [← a2]; exact hsl
      · rw [a2] at hsl; cases hsl
    obtain ⟨b1, b2⟩ := a3 x ep hx hep
    obtain ⟨g, hg⟩ := e1 (a1 ▸ hc) x ep b1 b2 a2'
    have : g ≠ f := by rintro rfl; rcases hg with hg | hg <;> simp [hg, Pc.closing] at a4
    exact ⟨g, by rw [(hfr.2.2 g this).1]; exact hg⟩
  have k2 : s'.closed = s.closed → (s.pc f).preProd = false ∨ (s'.pc f).preProd = true →
      ((s'.pc f).holdsProd = true ∧ s'.pc f ≠ .closeCons ∨ (s'.pc f).waits = some .prod ∧ s'.c.ready f = false →
        s'.closed = true → (s.pc f).holdsProd = true ∧ s.pc f ≠ .closeCons ∨ ((s.pc f).waits = some .prod ∧ s.c.ready f = false)) →
      s'.closed = true → ∀ f, (s'.pc f).holdsProd = true ∧ s'.pc f ≠ .closeCons ∨
        ((s'.pc f).waits = some .prod ∧ s'.c.ready f = false) → ∃ g, (s'.pc g).preProd = true := by
    intro a1 a2 a3 hc x hx
    have : ∃ g, (s.pc g).preProd = true := by
      by_cases hxf : x = f
      · subst hxf; exact e2 (a1 ▸ hc) x (a3 hx hc)
      · refine e2 (a1 ▸ hc) x ?_
        rcases hx with hx | hx
        · left; rw [(hfr.2.2 x hxf).1] at hx; exact hx
        · right; exact hbl x _ hxf hx.1 hx.2
    obtain ⟨g, hg⟩ := this
    by_cases hgf : g = f
    · subst hgf
      rcases a2 with a2 | a2
      · rw [a2] at hg; cases hg
      · exact ⟨g, a2⟩
    · exact ⟨g, by rw [(hfr.2.2 g hgf).1]; exact hg⟩
  have k3 : s'.closed = s.closed → (s.pc f).closing = false ∨ (s'.pc f).closing = true →
      ((s'.pc f).holdsCons = true ∨ (s'.pc f).waits = some .cons ∧ s'.c.ready f = false → s'.closed = true →
        (s.pc f).holdsCons = true ∨ ((s.pc f).waits = some .cons ∧ s.c.ready f = false)) →
      s'.closed = true → ∀ f, (s'.pc f).holdsCons = true ∨
        ((s'.pc f).waits = some .cons ∧ s'.c.ready f = false) → ∃ g, (s'.pc g).closing = true := by
    intro a1 a2 a3 hc x hx
    have : ∃ g, (s.pc g).closing = true := by
      by_cases hxf : x = f
      · subst hxf; exact e3 (a1 ▸ hc) x (a3 hx hc)
      · refine e3 (a1 ▸ hc) x ?_
        rcases hx with hx | hx
        · left; rw [(hfr.2.2 x hxf).1] at hx; exact hx
        · right; exact hbl x _ hxf hx.1 hx.2
    obtain ⟨g, hg⟩ := this
    by_cases hgf : g = f
    · subst hgf
      rcases a2 with a2 | a2
      · rw [a2] at hg; cases hg
      · exact ⟨g, a2⟩
    · exact ⟨g, by rw [(hfr.2.2 g hgf).1]; exact hg⟩
  have hopen : s'.closed = false → CE s' :=
    fun hc => ⟨fun h => by simp [hc] at h, fun h => by simp [hc] at h, fun h => by simp [hc] at h⟩
  have rA := fun i g => (hw.ready_notifyAll i g).2
  have hlp := hpi.lkp
  have hlc := hpi.lkc
  ucases s, f, hs, hp
  all_goals try (
    refine ⟨k1 rfl ?_ ?_ ?_, k2 rfl ?_ ?_, k3 rfl ?_ ?_⟩
    case refine_1 => first | exact Or.inl rfl | exact Or.inr rfl
    case refine_2 =>
      intro g ep hg
      by_cases hgf : g = f
      · subst hgf; simp [hp, Pc.offering, n1] at hg ⊢; done
      · simp only [upd_other _ _ hgf] at hg
        simp [hgf, consumeReady, hg, n1 _ _ _ hg]; done
    all_goals (simp [hp, Pc.closing, Pc.preProd, Pc.holdsProd, Pc.holdsCons, Pc.waits]; done))
  · rename_i v dl _ hsl
    refine hopen ?_
    cases hc : s.closed
    · rfl
    · exact absurd hsl (hlate hc _ _ hp)
  · refine ⟨k1 rfl (Or.inl rfl) ?_ ?_, k2 rfl ?_ ?_, k3 rfl ?_ ?_⟩
    · intro g ep hg
      by_cases hgf : g = f
      · subst hgf
        simp only [upd_same, Pc.offering] at hg
        have hg' : (s.pc g).offering = some ep := by rw [hp]; exact hg
        rw [n1 _ _ _ hg']; exact fun h => ⟨hg', h⟩
      · simp only [upd_other _ _ hgf] at hg
        rw [n1 _ _ _ hg]; exact fun h => ⟨hg, h⟩
    all_goals simp [hp, Pc.closing, Pc.preProd, Pc.holdsProd, Pc.holdsCons, Pc.waits]
  · rename_i hc
    exact hopen (by simpa using hc)
  · rename_i p r v _ _ ep hd
    refine ⟨k1 rfl (Or.inl rfl) ?_ ?_, k2 rfl ?_ ?_, k3 rfl ?_ ?_⟩
    · intro g ep' hg hep
      by_cases hgf : g = f
      · subst hgf; simp [Pc.offering] at hg
      · simp only [upd_other _ _ hgf] at hg
        refine ⟨hg, ?_⟩
        by_cases hgr : g = r.f
        · subst hgr; exact absurd hep (deref_woken hg hd)
        · rw [← (wake_epoch_ne s.c ⟨r.f, ep⟩ hgr).1]; exact hep
    all_goals simp [hp, Pc.closing, Pc.preProd, Pc.holdsProd, Pc.holdsCons, Pc.waits]
  · rename_i hc
    exact hopen (by simpa using hc)
  · refine ⟨fun _ _ _ _ _ _ => ⟨f, Or.inl ?_⟩, fun _ _ _ => ⟨f, ?_⟩, fun _ _ _ => ⟨f, ?_⟩⟩ <;>
      simp [Pc.preProd, Pc.closing]
  · rename_i r hsl
    refine ⟨?_, k2 rfl ?_ ?_, k3 rfl ?_ ?_⟩
    · intro _ x ep _ _ hx
      exact ⟨f, Or.inr (by simp only [upd_same]; simp only [hsl, Option.some.injEq] at hx; rw [hx])⟩
    all_goals simp [hp, Pc.closing, Pc.preProd, Pc.holdsProd, Pc.holdsCons, Pc.waits]
  · rename_i hsl
    refine ⟨?_, k2 rfl ?_ ?_, k3 rfl ?_ ?_⟩
    · intro _ x ep _ _ hx
      simp [hsl] at hx
    all_goals simp [hp, Pc.closing, Pc.preProd, Pc.holdsProd, Pc.holdsCons, Pc.waits]
  · rename_i r _ _ ep hd
    refine ⟨?_, k2 rfl ?_ ?_, k3 rfl ?_ ?_⟩
    · intro hc x ep' hx hep hsl
      by_cases hxf : x = f
      · subst hxf; simp [Pc.offering] at hx
      simp only [upd_other _ _ hxf] at hx
      by_cases hxr : x = r.f
      · subst hxr; exact absurd hep (deref_woken hx hd)
      · obtain ⟨g, hg⟩ := e1 hc x ep' hx (by rw [← (wake_epoch_ne s.c ⟨r.f, ep⟩ hxr).1]; exact hep) hsl
        have : g ≠ f := by
          rintro rfl
          rw [hp] at hg
          simp only [reduceCtorEq, Pc.closeWake.injEq, false_or] at hg
          exact hxr (by rw [hg])
        exact ⟨g, by simpa only [upd_other _ _ this] using hg⟩
    all_goals simp [hp, Pc.closing, Pc.preProd, Pc.holdsProd, Pc.holdsCons, Pc.waits]
  · exact ⟨e1, e2, e3⟩
  · rename_i hl
    refine ⟨?_, ?_, k3 rfl ?_ ?_⟩
    · intro hc x ep' hx hep hsl
      by_cases hxf : x = f
      · subst hxf; simp [Pc.offering] at hx
      simp only [upd_other _ _ hxf] at hx
      obtain ⟨g, hg⟩ := e1 hc x ep' hx (by rw [← nA .prod _ _ hx]; exact hep) hsl
      have : g ≠ f := by rintro rfl; simp [hp] at hg
      exact ⟨g, by simpa only [upd_other _ _ this] using hg⟩
    · rintro hc x (⟨h1, h2⟩ | ⟨h1, h2⟩)
      · by_cases hxf : x = f
        · subst hxf; simp at h2
        · simp only [upd_other _ _ hxf] at h1
          have := (hlp x).2 h1; simp [hl] at this
      · by_cases hxf : x = f
        · subst hxf; simp [Pc.waits] at h1
        · simp only [upd_other _ _ hxf] at h1
          have := rA .prod x h1
          rw [this] at h2; cases h2
    all_goals simp [hp, Pc.closing, Pc.preProd, Pc.holdsProd, Pc.holdsCons, Pc.waits]
  · rename_i hl
    refine ⟨?_, k2 rfl ?_ ?_, ?_⟩
    · intro hc x ep' hx hep hsl
      by_cases hxf : x = f
      · subst hxf; simp [Pc.offering] at hx
      simp only [upd_other _ _ hxf] at hx
      obtain ⟨g, hg⟩ := e1 hc x ep' hx (by rw [← nA .cons _ _ hx]; exact hep) hsl
      have : g ≠ f := by rintro rfl; simp [hp] at hg
      exact ⟨g, by simpa only [upd_other _ _ this] using hg⟩
    · simp [hp, Pc.preProd]
    · simp [Pc.holdsProd, Pc.waits]
    · rintro hc x (h1 | ⟨h1, h2⟩)
      · by_cases hxf : x = f
        · subst hxf; simp [Pc.holdsCons] at h1
        · simp only [upd_other _ _ hxf] at h1
          have := (hlc x).2 h1; simp [hl] at this
      · by_cases hxf : x = f
        · subst hxf; simp [Pc.waits] at h1
        · simp only [upd_other _ _ hxf] at h1
          have := rA .cons x h1
          rw [this] at h2; cases h2

theorem ce_step {s s' : State V} {o : List (Obs V)} {e : Event V} (hw : WI s) (hpi : PI s)
    (hlate : s.closed = true → ∀ f k v, .placed f k v ∉ o) (h : CE s) (hs : step s e = some (s', o)) :
    CE s' := by
  rcases other_frame hs with ⟨f, b, -, h1⟩ | ⟨h1, h2, -, -, -, -, h5, h6, -, h7⟩
  · refine ce_run hw hpi ?_ h h1
    intro hc v dl hp hsl
    simp only [run, hp, hsl, createWaker, Option.some.injEq, Prod.mk.injEq] at h1
    exact hlate hc f (s.calls f) v (by simp [← h1.2])
  · have key : (∀ g, s.pc g ≠ s'.pc g → s.pc g = .idle ∧ (s'.pc g).offering = none ∧ (s'.pc g).holdsProd = false ∧
        (s'.pc g).holdsCons = false ∧ (s'.pc g).waits = none) ∧
        (∀ g, (s'.pc g).offering ≠ none → s'.calls g = s.calls g) := by
      rcases h7 with ⟨f, op, hp, h8, h9, h10, -⟩ | ⟨h8, h9, -, -⟩
      · have hst := startOf_facts op
        constructor
        · intro g hg
          rw [h8] at hg ⊢
          by_cases hgf : g = f
          · subst hgf
            rw [upd_same]
            exact ⟨hp, hst.2.2.2.2.1, hst.1, hst.2.1, by cases op <;> rfl⟩
          · simp [upd_other _ _ hgf] at hg
        · intro g hg
          rw [h9]
          by_cases hgf : g = f
          · subst hgf; rw [h8, upd_same] at hg; exact absurd hst.2.2.2.2.1 hg
          · rw [upd_other _ _ hgf]
      · rw [h8, h9]; exact ⟨fun g hg => absurd rfl hg, fun _ _ => rfl⟩
    obtain ⟨kp, kc⟩ := key
    obtain ⟨e1, e2, e3⟩ := h
    have back : ∀ g, s.pc g ≠ .idle → s'.pc g = s.pc g := by
      intro g hg
      by_cases hgg : s.pc g = s'.pc g
      · exact hgg.symm
      · exact absurd (kp g hgg).1 hg
    refine ⟨?_, ?_, ?_⟩
    · intro hc x ep hx hep hsl
      rw [kc x (by rw [hx]; simp)] at hsl ⊢
      have hxx : s'.pc x = s.pc x := by
        by_cases hgg : s.pc x = s'.pc x
        · exact hgg.symm
        · rw [(kp x hgg).2.1] at hx; cases hx
      rw [hxx] at hx
      obtain ⟨g, hg⟩ := e1 (h2 ▸ hc) x ep hx (h6 x ep hx hep) (h1 ▸ hsl)
      exact ⟨g, by rw [back g (by rcases hg with hg | hg <;> simp [hg])]; exact hg⟩
    · intro hc x hx
      have hxx : s'.pc x = s.pc x := by
        by_cases hgg : s.pc x = s'.pc x
        · exact hgg.symm
        · obtain ⟨-, -, k1, -, k2⟩ := kp x hgg
          simp [k1, k2] at hx
      rw [hxx] at hx
      have hx' : (s.pc x).holdsProd = true ∧ s.pc x ≠ .closeCons ∨ (s.pc x).waits = some .prod ∧ s.c.ready x = false := by
        refine hx.imp_right fun h => ⟨h.1, ?_⟩
        cases hr : s.c.ready x
        · rfl
        · rw [h5 x hr] at h; exact h.2
      obtain ⟨g, hg⟩ := e2 (h2 ▸ hc) x hx'
      exact ⟨g, by rw [back g (by intro h; simp [h, Pc.preProd] at hg)]; exact hg⟩
    · intro hc x hx
      have hxx : s'.pc x = s.pc x := by
        by_cases hgg : s.pc x = s'.pc x
        · exact hgg.symm
        · obtain ⟨-, -, -, k1, k2⟩ := kp x hgg
          simp [k1, k2] at hx
      rw [hxx] at hx
      have hx' : (s.pc x).holdsCons = true ∨ (s.pc x).waits = some .cons ∧ s.c.ready x = false := by
        refine hx.imp_right fun h => ⟨h.1, ?_⟩
        cases hr : s.c.ready x
        · rfl
        · rw [h5 x hr] at h; exact h.2
      obtain ⟨g, hg⟩ := e3 (h2 ▸ hc) x hx'
      exact ⟨g, by rw [back g (by intro h; simp [h, Pc.closing] at hg)]; exact hg⟩

/-- No value is put on offer once the channel is closed. -/
def NoLate (tr : List (Obs V)) : Prop :=
  ∀ t1 c t2, tr = t1 ++ .closedAt c :: t2 → ∀ f k v, Obs.placed f k v ∉ t2

theorem NoLate.left {a b : List (Obs V)} (h : NoLate (a ++ b)) : NoLate a := by
  intro t1 c t2 he f k v hm
  exact h t1 c (t2 ++ b) (by simp [he]) f k v (by simp [hm])

theorem reach_ce [DecidableEq V] {s : State V} {tr : List (Obs V)} (h : Reach step init s tr) : NoLate tr → CE s :=
  Reach.inv (fun s tr => NoLate tr → CE s)
    (fun _ => ⟨by simp [init], by simp [init], by simp [init]⟩)
    (fun s tr e s' o hr hi hs hn => by
      refine ce_step (reach_w hr).1 (reach_pi hr) ?_ (hi hn.left) hs
      intro hc f k v hm
      obtain ⟨c, hc⟩ := (reach_called hr).2.1 hc
      obtain ⟨t1, t2, rfl⟩ := List.append_of_mem hc
      exact hn t1 c (t2 ++ o) (by simp) f k v (by simp [hm])) h

/-- After `close`, with nothing put on offer later and no exception of a value: when nobody can run, nobody is inside a call. -/
theorem closed_drains [DecidableEq V] {s : State V} {tr : List (Obs V)} (h : Reach step init s tr) (hn : NoLate tr)
    (hnt : NoThrow tr) (hc : s.closed = true) (hq : ∀ f, run s f = none) (f : Fid) : s.pc f = .idle := by
  have ce := reach_ce h hn
  have hst := stuck_cases (reach_pi h) hq
  have nocl : ∀ g, (s.pc g).closing = true → False := by
    intro g hg
    rcases hst g with h1 | ⟨_, h1⟩
    · simp [h1, Pc.closing] at hg
    · rcases h1 with ⟨_, _, _, h1⟩ | ⟨_, _, _, h1⟩ | ⟨_, _, h1⟩ <;> simp [h1, Pc.closing] at hg
  have nopre : ∀ g, (s.pc g).preProd = true → False := fun g hg => nocl g (by
    cases hp : s.pc g <;> simp_all [Pc.preProd, Pc.closing])
  rcases hst f with h1 | ⟨hr, h1⟩
  · exact h1
  exfalso
  rcases h1 with ⟨v, dl, ep, h1⟩ | ⟨v, dl, ep, h1⟩ | ⟨p, ep, h1⟩
  · have hoff : (s.pc f).offering = some ep := by rw [h1]; rfl
    have hep : s.c.epoch f = ep := by
      obtain ⟨gh, hw⟩ := (reach_w h).1
      exact (hw.not_ready_iff (f := f) (r := ⟨none, ep, dl, false⟩) (by simp [h1, regOf]) rfl).1 hr
    rcases reach_off h hnt f ep hoff hep with h2 | ⟨g, h2⟩
    · obtain ⟨g, hg⟩ := ce.e1 hc f ep hoff hep h2
      exact nocl g (by rcases hg with hg | hg <;> simp [hg, Pc.closing])
    · rcases hst g with h3 | ⟨_, h3⟩
      · simp [h3, Pc.held] at h2
      · rcases h3 with ⟨_, _, _, h3⟩ | ⟨_, _, _, h3⟩ | ⟨_, _, h3⟩ <;> simp [h3, Pc.held] at h2
  · obtain ⟨g, hg⟩ := ce.e2 hc f (Or.inr ⟨by rw [h1]; rfl, hr⟩)
    exact nopre g hg
  · obtain ⟨g, hg⟩ := ce.e3 hc f (Or.inr ⟨by rw [h1]; rfl, hr⟩)
    exact nocl g hg

end Verif.Unbuf
