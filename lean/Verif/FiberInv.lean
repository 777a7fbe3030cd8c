import Verif.Fiber

/-!
# Fibers and handles: the invariant
-/

namespace Verif.Fib

/-- The reference the scheduler holds until the dispatcher released the fiber. -/
def own (p : Pc) : Nat := if p = .reaped then 0 else 1

def Pc.over : Pc → Bool
  | .leaving | .gone | .reaped => true
  | _ => false

structure Core (s : State) : Prop where
  unb  : ∀ f, s.pc f = .unborn → s.main f = false ∧ s.refs f = 0
  mn   : ∀ f, s.main f = true → s.refs f = 1 ∧ s.pc f ≠ .ending ∧ s.pc f ≠ .unborn ∧ s.term f = false
  hold : ∀ h g, s.hd h = some (some g) → s.pc g ≠ .unborn ∧ s.main g = false
  uniq : ∀ h h' g, s.hd h = some (some g) → s.hd h' = some (some g) → h = h'
  held : ∀ h g, s.hd h = some (some g) → s.refs g = 1 + own (s.pc g)
  free : ∀ g, s.pc g ≠ .unborn → s.main g = false → (∀ h, s.hd h ≠ some (some g)) → s.refs g = own (s.pc g)
  liv  : ∀ g, s.live g = true ↔ 0 < s.refs g
  trm  : ∀ g, s.term g = (s.pc g).over
  usr  : ∀ h f, f ∈ s.users h ↔ (∃ g ep, s.pc f = .waiting h g ep) ∨ ∃ g, s.pc f = .joined h g
  nod  : ∀ h, (s.users h).Nodup
  wai  : ∀ f h g ep, s.pc f = .waiting h g ep → g ≠ f ∧ (s.term g = false → s.hd h = some (some g)) ∧
    (s.hd h = some none ∨ s.hd h = some (some g))
  joi  : ∀ f h g, s.pc f = .joined h g → s.term g = true ∧ (s.hd h = some none ∨ s.hd h = some (some g))

theorem core_init : Core init := by
  constructor <;> simp [init, Pc.over]

def regOf : Pc → Option (WReg Fid)
  | .waiting _ g ep => some ⟨g, ep, none, false⟩
  | _ => none

structure WI (s : State) : Prop where
  w  : WInv s.c s.q 0 (fun f => regOf (s.pc f))
  rd : ∀ f h g ep, s.pc f = .waiting h g ep → (s.c.ready f = true ↔ s.term g = true)

theorem wi_init : WI init := ⟨WInv.init.congr (fun _ => rfl) (fun _ => rfl), by simp [init]⟩

/-- Releasing a reference that exists, of a fiber that is off its stack if this is the last one. -/
theorem release_eq {s : State} {g : Fid} (hl : s.live g = true) (ho : s.refs g = 1 → (s.pc g).off = true) :
    release s g = ({ s with refs := upd s.refs g (s.refs g - 1), live := upd s.live g (decide (s.refs g ≠ 1)) },
      if s.refs g = 1 then [.freed g] else []) := by
  unfold release
  rw [if_pos hl]
  split
  · rename_i h1; simp [h1, ho h1]
  · rename_i h1
    simp only [h1, if_false, Prod.mk.injEq, and_true, ne_eq, not_false_eq_true, decide_true]
    congr 1
    funext k; simp only [upd_apply]; split
    · subst_vars; exact hl
    · rfl

theorem own_pos {p : Pc} : own p = 0 ↔ p = .reaped := by unfold own; split <;> simp_all

theorem own_le (p : Pc) : own p = 0 ∨ own p = 1 := by unfold own; split <;> simp

/-- Dropping the only handle of `g`. -/
theorem Core.drop {s : State} (h : Core s) {k : Hid} {g : Fid} (hk : s.hd k = some (some g))
    (ht : s.term g = true ∨ s.users k = []) :
    Core { s with hd := upd s.hd k (some none), refs := upd s.refs g (s.refs g - 1), live := upd s.live g (decide (s.refs g ≠ 1)) } := by
  obtain ⟨unb, mn, hold, uniq, held, free, liv, trm, usr, nod, wai, joi⟩ := h
  have h1 := held k g hk
  have h2 := hold k g hk
  have h3 := own_le (s.pc g)
  constructor <;> simp only [upd_apply]
  all_goals try assumption
  · grind
  · grind
  · grind
  · grind
  · grind
  · grind
  · grind
  · intro f' h' g' ep' hp
    have hu := (usr h' f').2 (.inl ⟨g', ep', hp⟩)
    have := wai f' h' g' ep' hp
    have : h' = k → g' = g := by grind
    have : h' = k → s.term g = true := by rintro rfl; rcases ht with ht | ht <;> simp_all
    grind
  · grind

/-- The program counter of one fiber changes without touching handles or counts. -/
theorem Core.go {s : State} (h : Core s) {f : Fid} {p : Pc} (h0 : s.pc f ≠ .unborn) (h1 : p ≠ .unborn) (h2 : p ≠ .ending ∨ s.main f = false)
    (h3 : p.over = (s.pc f).over) (h4 : own p = own (s.pc f)) (h5 : ∀ k, f ∉ s.users k)
    (h6 : ∀ h g ep, p ≠ .waiting h g ep) (h7 : ∀ h g, p ≠ .joined h g) : Core { s with pc := upd s.pc f p } := by
  obtain ⟨unb, mn, hold, uniq, held, free, liv, trm, usr, nod, wai, joi⟩ := h
  constructor <;> simp only [upd_apply]
  all_goals try assumption
  · grind
  · grind
  · grind
  · grind
  · grind
  · grind
  · intro k g
    have := usr k g
    have := h5 k
    split
    · subst_vars
      simp [h6, h7]; exact h5 k
    · exact usr k g
  · grind
  · grind

/-- Handles change hands without any fiber gaining or losing its handle. -/
theorem Core.rename {s : State} (h : Core s) {hd' : Hid → Option (Option Fid)}
    (π : Hid → Hid) (hπ : ∀ k, π (π k) = k)
    (h0 : ∀ k g, hd' k = some (some g) ↔ s.hd (π k) = some (some g))
    (h3 : ∀ k, s.users k ≠ [] → hd' k = s.hd k) : Core { s with hd := hd' } := by
  obtain ⟨unb, mn, hold, uniq, held, free, liv, trm, usr, nod, wai, joi⟩ := h
  have h1 : ∀ g, (∃ k, hd' k = some (some g)) ↔ ∃ k, s.hd k = some (some g) := fun g =>
    ⟨fun ⟨k, hk⟩ => ⟨π k, (h0 k g).1 hk⟩, fun ⟨k, hk⟩ => ⟨π k, (h0 (π k) g).2 (by rw [hπ]; exact hk)⟩⟩
  have h2 : ∀ k k' g, hd' k = some (some g) → hd' k' = some (some g) → k = k' := fun k k' g a b => by
    rw [← hπ k, uniq _ _ g ((h0 k g).1 a) ((h0 k' g).1 b), hπ]
  have e : ∀ f k, f ∈ s.users k → hd' k = s.hd k := fun f k hf => h3 k (by rintro e; rw [e] at hf; cases hf)
  constructor <;> simp only
  all_goals try assumption
  · intro k g hk; obtain ⟨k', hk'⟩ := (h1 g).1 ⟨k, hk⟩; exact hold k' g hk'
  · intro k g hk; obtain ⟨k', hk'⟩ := (h1 g).1 ⟨k, hk⟩; exact held k' g hk'
  · intro g a b c; exact free g a b (fun k hk => by obtain ⟨k', hk'⟩ := (h1 g).2 ⟨k, hk⟩; exact c k' hk')
  · intro f k g ep hp
    rw [e f k ((usr k f).2 (.inl ⟨g, ep, hp⟩))]; exact wai f k g ep hp
  · intro f k g hp
    rw [e f k ((usr k f).2 (.inr ⟨g, hp⟩))]; exact joi f k g hp

theorem not_user {s : State} (h : Core s) {f : Fid} (hw : ∀ h g ep, s.pc f ≠ .waiting h g ep) (hj : ∀ h g, s.pc f ≠ .joined h g) :
    ∀ k, f ∉ s.users k := by
  intro k hk
  rcases (h.usr k f).1 hk with ⟨g, ep, hp⟩ | ⟨g, hp⟩
  · exact hw _ _ _ hp
  · exact hj _ _ hp

/-- What a step must preserve: the invariant, and no undefined behaviour. -/
def Good (s : State) (o : List Obs) : Prop := Core s ∧ ∀ f, .ub f ∉ o

/-- Exchange of two names. -/
def swp (k k' j : Hid) : Hid := if j = k then k' else if j = k' then k else j

theorem swp_swp (k k' j : Hid) : swp k k' (swp k k' j) = j := by unfold swp; grind

theorem hd_of_user {s : State} (hc : Core s) {k : Hid} (hu : s.users k ≠ []) : s.hd k ≠ none := by
  obtain ⟨f', hf'⟩ := List.exists_mem_of_ne_nil _ hu
  rcases (hc.usr k f').1 hf' with ⟨g, ep, h1⟩ | ⟨g, h1⟩
  · have := (hc.wai _ _ _ _ h1).2.2; rcases this with h | h <;> simp [h]
  · have := (hc.joi _ _ _ h1).2; rcases this with h | h <;> simp [h]

theorem good_call {s s' : State} {f : Fid} {op : Op} {o : List Obs} (hc : Core s) (hp : s.pc f = .idle)
    (hs : call s f op = some (s', o)) : Good s' o := by
  cases op with
  | spawn k g =>
    simp only [call] at hs
    split at hs <;> try (simp only [reduceCtorEq] at hs; done)
    rename_i hg
    simp only [ret, Option.some.injEq, Prod.mk.injEq] at hs
    obtain ⟨rfl, rfl⟩ := hs
    refine ⟨?_, by simp⟩
    have hnu := not_user hc (f := g) (by simp [hg.2]) (by simp [hg.2])
    have hnh : ∀ k, s.hd k ≠ some (some g) := fun k hk => (hc.hold k g hk).1 hg.2
    obtain ⟨unb, mn, hold, uniq, held, free, liv, trm, usr, nod, wai, joi⟩ := hc
    have h1 := unb g hg.2
    obtain ⟨hg1, hg2⟩ := hg
    have h2 := trm g
    rw [hg2] at h2
    constructor <;> simp only [upd_apply]
    all_goals try assumption
    · grind
    · grind
    · grind
    · grind
    · grind [own]
    · grind [own]
    · grind
    · grind [Pc.over]
    · intro k' f'
      split
      · subst_vars; simp [hnu k']
      · exact usr k' f'
    · grind
    · grind
  | mkEmpty k =>
    simp only [call] at hs
    split at hs <;> try (simp only [reduceCtorEq] at hs; done)
    rename_i hg
    simp only [ret, Option.some.injEq, Prod.mk.injEq] at hs
    obtain ⟨rfl, rfl⟩ := hs
    refine ⟨hc.rename id (fun _ => rfl) ?_ ?_, by simp⟩
    · intro k' g; simp only [upd_apply, id]; grind
    · intro k' hu
      have := hd_of_user hc hu
      simp only [upd_apply]; grind
  | move k k' =>
    simp only [call] at hs
    split at hs <;> try (simp only [reduceCtorEq] at hs; done)
    rename_i x hx
    split at hs <;> try (simp only [reduceCtorEq] at hs; done)
    rename_i hg
    simp only [ret, Option.some.injEq, Prod.mk.injEq] at hs
    obtain ⟨rfl, rfl⟩ := hs
    refine ⟨hc.rename (swp k k') (swp_swp k k') ?_ ?_, by simp⟩
    · intro j g; simp only [upd_apply, swp]; grind
    · intro j hu
      have := hd_of_user hc hu
      simp only [upd_apply]; grind
  | moveAssign k k' =>
    simp only [call] at hs
    split at hs <;> try (simp only [reduceCtorEq] at hs; done)
    rename_i x y hx hy
    split at hs <;> try (simp only [reduceCtorEq] at hs; done)
    rename_i hg
    split at hs
    · simp only [abort, Option.some.injEq, Prod.mk.injEq] at hs
      obtain ⟨rfl, rfl⟩ := hs
      obtain ⟨unb, mn, hold, uniq, held, free, liv, trm, usr, nod, wai, joi⟩ := hc
      exact ⟨⟨unb, mn, hold, uniq, held, free, liv, trm, usr, nod, wai, joi⟩, by simp⟩
    · split at hs
      · simp only [ret, Option.some.injEq, Prod.mk.injEq] at hs
        obtain ⟨rfl, rfl⟩ := hs
        exact ⟨hc, by simp⟩
      · simp only [ret, Option.some.injEq, Prod.mk.injEq] at hs
        obtain ⟨rfl, rfl⟩ := hs
        refine ⟨hc.rename (swp k k') (swp_swp k k') ?_ ?_, by simp⟩
        · intro j g; simp only [upd_apply, swp]; grind
        · intro j hu
          have := hd_of_user hc hu
          simp only [upd_apply]; grind
  | swap k k' =>
    simp only [call] at hs
    split at hs <;> try (simp only [reduceCtorEq] at hs; done)
    rename_i x y hx hy
    split at hs <;> try (simp only [reduceCtorEq] at hs; done)
    rename_i hg
    simp only [ret, Option.some.injEq, Prod.mk.injEq] at hs
    obtain ⟨rfl, rfl⟩ := hs
    refine ⟨hc.rename (swp k k') (swp_swp k k') ?_ ?_, by simp⟩
    · intro j g; simp only [upd_apply, swp]; grind
    · intro j hu
      simp only [upd_apply]; grind
  | destroy k =>
    simp only [call] at hs
    split at hs <;> try (simp only [reduceCtorEq] at hs; done)
    rename_i x hx
    split at hs <;> try (simp only [reduceCtorEq] at hs; done)
    rename_i hg
    split at hs
    · simp only [abort, Option.some.injEq, Prod.mk.injEq] at hs
      obtain ⟨rfl, rfl⟩ := hs
      obtain ⟨unb, mn, hold, uniq, held, free, liv, trm, usr, nod, wai, joi⟩ := hc
      exact ⟨⟨unb, mn, hold, uniq, held, free, liv, trm, usr, nod, wai, joi⟩, by simp⟩
    · rename_i hn
      simp only [ret, Option.some.injEq, Prod.mk.injEq] at hs
      obtain ⟨rfl, rfl⟩ := hs
      refine ⟨hc.rename id (fun _ => rfl) ?_ ?_, by simp⟩
      · intro j g; simp only [upd_apply, id]; grind
      · intro j hu
        simp only [upd_apply]; grind
  | join k =>
    simp only [call] at hs
    split at hs <;> try (simp only [reduceCtorEq] at hs; done)
    · simp only [ret, Option.some.injEq, Prod.mk.injEq] at hs
      obtain ⟨rfl, rfl⟩ := hs
      exact ⟨hc, by simp⟩
    · rename_i g hx
      split at hs
      · simp only [ret, Option.some.injEq, Prod.mk.injEq] at hs
        obtain ⟨rfl, rfl⟩ := hs
        exact ⟨hc, by simp⟩
      · rename_i hgf
        have hlive : s.live g = true := (hc.liv g).2 (by rw [hc.held k g hx]; omega)
        rw [if_pos hlive] at hs
        have hnu := not_user hc (f := f) (by simp [hp]) (by simp [hp])
        split at hs
        · rename_i ht
          simp only [Option.some.injEq, Prod.mk.injEq] at hs
          obtain ⟨rfl, rfl⟩ := hs
          refine ⟨?_, by simp⟩
          obtain ⟨unb, mn, hold, uniq, held, free, liv, trm, usr, nod, wai, joi⟩ := hc
          constructor <;> simp only [upd_apply]
          all_goals try assumption
          · grind
          · grind
          · grind
          · grind [own]
          · grind [own]
          · grind [Pc.over]
          · intro k' f'
            by_cases hf : f' = f
            · subst hf
              by_cases hk : k' = k
              · subst hk; simp
              · simp only [hk, if_false, if_true, hnu k', false_iff, reduceCtorEq, Pc.waiting.injEq, Pc.joined.injEq]
                grind
            · by_cases hk : k' = k
              · subst hk; simp [hf, usr]
              · simp [hf, hk, usr]
          · grind
          · grind
          · grind
        · rename_i ht
          simp only [Option.some.injEq, Prod.mk.injEq] at hs
          obtain ⟨rfl, rfl⟩ := hs
          refine ⟨?_, by simp⟩
          obtain ⟨unb, mn, hold, uniq, held, free, liv, trm, usr, nod, wai, joi⟩ := hc
          constructor <;> simp only [upd_apply]
          all_goals try assumption
          · grind
          · grind
          · grind
          · grind [own]
          · grind [own]
          · grind [Pc.over]
          · intro k' f'
            by_cases hf : f' = f
            · subst hf
              by_cases hk : k' = k
              · subst hk; simp
              · simp only [hk, if_false, if_true, hnu k', false_iff, reduceCtorEq, Pc.waiting.injEq, Pc.joined.injEq]
                grind
            · by_cases hk : k' = k
              · subst hk; simp [hf, usr]
              · simp [hf, hk, usr]
          · grind
          · grind
          · grind
  | detach k =>
    simp only [call] at hs
    split at hs <;> try (simp only [reduceCtorEq] at hs; done)
    · simp only [ret, Option.some.injEq, Prod.mk.injEq] at hs
      obtain ⟨rfl, rfl⟩ := hs
      exact ⟨hc, by simp⟩
    · rename_i g hx
      split at hs <;> try (simp only [reduceCtorEq] at hs; done)
      rename_i hu
      have hr := hc.held k g hx
      rw [release_eq] at hs
      · simp only [ret, Option.some.injEq, Prod.mk.injEq] at hs
        obtain ⟨rfl, rfl⟩ := hs
        refine ⟨hc.drop hx (.inr hu), ?_⟩
        intro f'; split <;> simp
      · exact (hc.liv g).2 (by omega)
      · intro h1
        have : own (s.pc g) = 0 := by simp only at h1; omega
        simp only; rw [own_pos.1 this]; rfl
  | joinable k =>
    simp only [call] at hs
    split at hs <;> try (simp only [reduceCtorEq] at hs; done)
    simp only [ret, Option.some.injEq, Prod.mk.injEq] at hs
    obtain ⟨rfl, rfl⟩ := hs
    exact ⟨hc, by simp⟩

/-- A fiber leaves `join`. -/
theorem Core.leave {s : State} (h : Core s) {f k g : Nat} (hp : s.pc f = .joined k g) :
    Core { s with pc := upd s.pc f .idle, users := upd s.users k ((s.users k).erase f) } := by
  have hmem : ∀ k' f', f' ∈ upd s.users k ((s.users k).erase f) k' ↔ f' ∈ s.users k' ∧ f' ≠ f := by
    intro k' f'
    simp only [upd_apply]; split
    · rename_i e; subst e; rw [(h.nod k').mem_erase_iff]; exact and_comm
    · rename_i hk
      have : f ∉ s.users k' := by
        intro hm
        rcases (h.usr k' f).1 hm with ⟨g', ep, e⟩ | ⟨g', e⟩ <;> simp [hp] at e
        exact hk e.1.symm
      grind
  obtain ⟨unb, mn, hold, uniq, held, free, liv, trm, usr, nod, wai, joi⟩ := h
  have hnod : ∀ k', (upd s.users k ((s.users k).erase f) k').Nodup := by
    intro k'; simp only [upd_apply]; split
    · exact (nod k).erase f
    · exact nod k'
  constructor
  all_goals try assumption
  all_goals simp only [upd_apply]
  · grind
  · grind
  · grind
  · grind [own]
  · grind [own]
  · intro g'
    by_cases hg : g' = f
    · subst hg; simpa [hp, Pc.over] using trm g'
    · simpa [hg] using trm g'
  · intro k' f'
    have := hmem k' f'
    simp only [upd_apply] at this
    rw [this, usr]
    by_cases hf : f' = f
    · subst hf; simp
    · simp [hf]
  · grind
  · grind

theorem good_run {s s' : State} {f : Fid} {o : List Obs} (hc : Core s) (hw : WI s) (hs : run s f = some (s', o)) : Good s' o := by
  simp only [run] at hs
  split at hs <;> try (simp only [reduceCtorEq] at hs; done)
  · rename_i k g ep hp
    split at hs <;> try (simp only [reduceCtorEq] at hs; done)
    rename_i hr
    simp only [Option.some.injEq, Prod.mk.injEq] at hs
    obtain ⟨rfl, rfl⟩ := hs
    have ht := (hw.rd f k g ep hp).1 hr
    have hk := hc.wai f k g ep hp
    refine ⟨?_, by simp⟩
    obtain ⟨unb, mn, hold, uniq, held, free, liv, trm, usr, nod, wai, joi⟩ := hc
    constructor
    all_goals try assumption
    all_goals simp only [upd_apply]
    · grind
    · grind
    · grind
    · grind [own]
    · grind [own]
    · intro g'
      by_cases hg : g' = f
      · subst hg; simpa [hp, Pc.over] using trm g'
      · simpa [hg] using trm g'
    · intro k' f'
      rw [usr]
      by_cases hf : f' = f
      · subst hf; simp [hp]
      · simp [hf]
    · grind
    · grind
  · rename_i k g hp
    have hj := hc.joi f k g hp
    have hl := hc.leave hp
    split at hs
    · rename_i g' hg'
      have : g' = g := by rcases hj.2 with h | h <;> simp_all
      subst this
      have hr := hl.held k g' hg'
      rw [release_eq] at hs
      · simp only [Option.some.injEq, Prod.mk.injEq] at hs
        obtain ⟨rfl, rfl⟩ := hs
        refine ⟨hl.drop hg' (.inl hj.1), ?_⟩
        intro f'; split <;> simp
      · exact (hl.liv g').2 (by omega)
      · intro h1
        have : own ((upd s.pc f .idle) g') = 0 := by simp only at h1 hr; omega
        simp only; rw [own_pos.1 this]; rfl
    · simp only [Option.some.injEq, Prod.mk.injEq] at hs
      obtain ⟨rfl, rfl⟩ := hs
      exact ⟨hl, by simp⟩
  · rename_i hp
    have hnu := not_user hc (f := f) (by simp [hp]) (by simp [hp])
    have hmn : s.main f = false := by
      cases hm : s.main f with
      | false => rfl
      | true => exact absurd hp (hc.mn f hm).2.1
    have hlive : s.live f = true := by
      rw [hc.liv]
      by_cases hh : ∃ k, s.hd k = some (some f)
      · obtain ⟨k, hk⟩ := hh; rw [hc.held k f hk]; omega
      · rw [hc.free f (by simp [hp]) hmn (fun k hk => hh ⟨k, hk⟩), hp]; decide
    rw [if_pos hlive] at hs
    simp only [Option.some.injEq, Prod.mk.injEq] at hs
    obtain ⟨rfl, rfl⟩ := hs
    refine ⟨?_, by simp⟩
    obtain ⟨unb, mn, hold, uniq, held, free, liv, trm, usr, nod, wai, joi⟩ := hc
    constructor
    all_goals try assumption
    all_goals simp only [upd_apply]
    · grind
    · grind
    · grind
    · grind [own]
    · grind [own]
    · intro g'
      by_cases hg : g' = f
      · subst hg; simp [Pc.over]
      · simpa [hg] using trm g'
    · intro k' f'
      rw [usr]
      by_cases hf : f' = f
      · subst hf; simp [hp]
      · simp [hf]
    · grind
    · grind
  · rename_i hp
    have hnu := not_user hc (f := f) (by simp [hp]) (by simp [hp])
    have hmn : s.main f = false := by
      cases hm : s.main f with
      | false => rfl
      | true => have := (hc.mn f hm).2.2.2; rw [hc.trm, hp] at this; simp [Pc.over] at this
    have hlive : s.live f = true := by
      rw [hc.liv]
      by_cases hh : ∃ k, s.hd k = some (some f)
      · obtain ⟨k, hk⟩ := hh; rw [hc.held k f hk]; omega
      · rw [hc.free f (by simp [hp]) hmn (fun k hk => hh ⟨k, hk⟩), hp]; decide
    rw [if_pos hlive] at hs
    simp only [Option.some.injEq, Prod.mk.injEq] at hs
    obtain ⟨rfl, rfl⟩ := hs
    exact ⟨hc.go (by simp [hp]) (by simp) (.inl (by simp)) (by simp [hp, Pc.over]) (by simp [hp, own]) hnu (by simp) (by simp), by simp⟩

theorem good_step {s s' : State} {e : Event} {o : List Obs} (hc : Core s) (hw : WI s) (hs : step s e = some (s', o)) : Good s' o := by
  simp only [step] at hs
  split at hs <;> try (simp only [reduceCtorEq] at hs; done)
  cases e with
  | thread f =>
    simp only at hs
    split at hs <;> try (simp only [reduceCtorEq] at hs; done)
    rename_i hp
    simp only [Option.some.injEq, Prod.mk.injEq] at hs
    obtain ⟨rfl, rfl⟩ := hs
    refine ⟨?_, by simp⟩
    obtain ⟨unb, mn, hold, uniq, held, free, liv, trm, usr, nod, wai, joi⟩ := hc
    constructor
    all_goals try assumption
    all_goals simp only [upd_apply]
    · grind
    · intro g; have := trm f; rw [hp] at this; have : s.term f = false := this; grind
    · grind
    · grind
    · grind
    · grind
    · intro g'
      by_cases hg : g' = f
      · subst hg; simpa [hp, Pc.over] using trm g'
      · simpa [hg] using trm g'
    · intro k' f'
      rw [usr]
      by_cases hf : f' = f
      · subst hf; simp [hp]
      · simp [hf]
    · grind
    · grind
  | call f op =>
    simp only at hs
    split at hs <;> try (simp only [reduceCtorEq] at hs; done)
    rename_i hp
    exact good_call hc hp hs
  | finish f =>
    simp only at hs
    split at hs <;> try (simp only [reduceCtorEq] at hs; done)
    rename_i hp
    simp only [Option.some.injEq, Prod.mk.injEq] at hs
    obtain ⟨rfl, rfl⟩ := hs
    have hnu := not_user hc (f := f) (by simp [hp.1]) (by simp [hp.1])
    exact ⟨hc.go (by simp [hp.1]) (by simp) (.inr hp.2) (by simp [hp.1, Pc.over]) (by simp [hp.1, own]) hnu (by simp) (by simp), by simp⟩
  | run f => exact good_run hc hw hs
  | reap f =>
    simp only at hs
    split at hs <;> try (simp only [reduceCtorEq] at hs; done)
    rename_i hp
    have hnu := not_user hc (f := f) (by simp [hp]) (by simp [hp])
    have hmn : s.main f = false := by
      cases hm : s.main f with
      | false => rfl
      | true => have := (hc.mn f hm).2.2.2; rw [hc.trm, hp] at this; simp [Pc.over] at this
    have hlive : 0 < s.refs f := by
      by_cases hh : ∃ k, s.hd k = some (some f)
      · obtain ⟨k, hk⟩ := hh; rw [hc.held k f hk]; omega
      · rw [hc.free f (by simp [hp]) hmn (fun k hk => hh ⟨k, hk⟩), hp]; decide
    rw [release_eq (by exact (hc.liv f).2 hlive) (by intro _; simp only [upd_same]; rfl)] at hs
    simp only [Option.some.injEq, Prod.mk.injEq] at hs
    obtain ⟨rfl, rfl⟩ := hs
    refine ⟨?_, by intro f'; split <;> simp⟩
    obtain ⟨unb, mn, hold, uniq, held, free, liv, trm, usr, nod, wai, joi⟩ := hc
    constructor
    all_goals try assumption
    all_goals simp only [upd_apply]
    · grind
    · grind
    · grind
    · grind [own]
    · grind [own]
    · grind
    · intro g'
      by_cases hg : g' = f
      · subst hg; simpa [hp, Pc.over] using trm g'
      · simpa [hg] using trm g'
    · intro k' f'
      rw [usr]
      by_cases hf : f' = f
      · subst hf; simp [hp]
      · simp [hf]
    · grind
    · grind
  | elsewhere f n =>
    simp only at hs
    split at hs <;> try (simp only [reduceCtorEq] at hs; done)
    simp only [Option.some.injEq, Prod.mk.injEq] at hs
    obtain ⟨rfl, rfl⟩ := hs
    obtain ⟨unb, mn, hold, uniq, held, free, liv, trm, usr, nod, wai, joi⟩ := hc
    exact ⟨⟨unb, mn, hold, uniq, held, free, liv, trm, usr, nod, wai, joi⟩, by simp⟩

/-- What concerns waiting is untouched, except that one fiber moves outside the wait queues. -/
theorem WI.go {s s' : State} (h : WI s) {f : Fid} {p : Pc} (hc : s'.c = s.c) (hq : s'.q = s.q) (ht : s'.term = s.term)
    (hp : s'.pc = upd s.pc f p) (hr0 : regOf (s.pc f) = none) (hr1 : regOf p = none) : WI s' := by
  constructor
  · rw [hc, hq]
    refine h.w.congr (fun _ => rfl) ?_
    intro g; rw [hp, upd_apply]; split
    · subst_vars; rw [hr0, hr1]
    · rfl
  · intro f' k g ep
    rw [hp, hc, ht, upd_apply]; split
    · rintro rfl; simp [regOf] at hr1
    · exact h.rd f' k g ep

theorem WI.same {s s' : State} (h : WI s) (hc : s'.c = s.c) (hq : s'.q = s.q) (ht : s'.term = s.term)
    (hp : s'.pc = s.pc) : WI s' :=
  ⟨by rw [hc, hq, hp]; exact h.w, by rw [hc, ht, hp]; exact h.rd⟩

theorem release_wait (s : State) (g : Fid) : (release s g).1.c = s.c ∧ (release s g).1.q = s.q ∧
    (release s g).1.term = s.term ∧ (release s g).1.pc = s.pc := by
  unfold release; split
  · split <;> exact ⟨rfl, rfl, rfl, rfl⟩
  · exact ⟨rfl, rfl, rfl, rfl⟩

theorem wi_call {s s' : State} {f : Fid} {op : Op} {o : List Obs} (hw : WI s) (hp : s.pc f = .idle)
    (hs : call s f op = some (s', o)) : WI s' := by
  cases op with
  | spawn k g =>
    simp only [call] at hs
    split at hs <;> try (simp only [reduceCtorEq] at hs; done)
    rename_i hg
    simp only [ret, Option.some.injEq, Prod.mk.injEq] at hs
    obtain ⟨rfl, rfl⟩ := hs
    exact hw.go rfl rfl rfl rfl (by simp [hg.2, regOf]) rfl
  | join k =>
    simp only [call] at hs
    split at hs <;> try (simp only [reduceCtorEq] at hs; done)
    · simp only [ret, Option.some.injEq, Prod.mk.injEq] at hs
      obtain ⟨rfl, rfl⟩ := hs; exact hw
    · rename_i g hx
      split at hs
      · simp only [ret, Option.some.injEq, Prod.mk.injEq] at hs
        obtain ⟨rfl, rfl⟩ := hs; exact hw
      · split at hs
        · split at hs
          · simp only [Option.some.injEq, Prod.mk.injEq] at hs
            obtain ⟨rfl, rfl⟩ := hs
            exact hw.go rfl rfl rfl rfl (by simp [hp, regOf]) rfl
          · rename_i ht
            simp only [Option.some.injEq, Prod.mk.injEq] at hs
            obtain ⟨rfl, rfl⟩ := hs
            constructor
            · refine hw.w.enqueue (f := f) (i := g) (dl := none) (by simp [hp, regOf]) ?_ ?_
              · intro j; simp only [upd_apply]
              · intro g'; simp only [upd_apply]; split <;> rfl
            · intro f' k' g' ep'
              simp only [upd_apply]
              split
              · rintro e
                cases e
                subst_vars
                have : s.c.ready f' = false := hw.w.off f' (by simp [hp, regOf])
                simp only [enqueue, createWaker]
                simp_all
              · exact hw.rd f' k' g' ep'
        · simp only [Option.some.injEq, Prod.mk.injEq] at hs
          obtain ⟨rfl, rfl⟩ := hs; exact hw
  | detach k =>
    simp only [call] at hs
    split at hs <;> try (simp only [reduceCtorEq] at hs; done)
    · simp only [ret, Option.some.injEq, Prod.mk.injEq] at hs
      obtain ⟨rfl, rfl⟩ := hs; exact hw
    · split at hs <;> try (simp only [reduceCtorEq] at hs; done)
      rename_i g _ _
      simp only [ret, Option.some.injEq, Prod.mk.injEq] at hs
      obtain ⟨rfl, rfl⟩ := hs
      obtain ⟨h1, h2, h3, h4⟩ := release_wait { s with hd := upd s.hd k (some none) } g
      exact hw.same h1 h2 h3 h4
  | mkEmpty | move | moveAssign | swap | destroy | joinable =>
    simp only [call] at hs
    repeat' split at hs
    all_goals try (simp only [reduceCtorEq] at hs; done)
    all_goals
      simp only [ret, abort, Option.some.injEq, Prod.mk.injEq] at hs
      obtain ⟨rfl, rfl⟩ := hs
      exact hw.same rfl rfl rfl rfl

theorem wi_step {s s' : State} {e : Event} {o : List Obs} (hc : Core s) (hw : WI s) (hs : step s e = some (s', o)) : WI s' := by
  simp only [step] at hs
  split at hs <;> try (simp only [reduceCtorEq] at hs; done)
  cases e with
  | thread f =>
    simp only at hs
    split at hs <;> try (simp only [reduceCtorEq] at hs; done)
    rename_i hp
    simp only [Option.some.injEq, Prod.mk.injEq] at hs
    obtain ⟨rfl, rfl⟩ := hs
    exact hw.go rfl rfl rfl rfl (by simp [hp, regOf]) rfl
  | call f op =>
    simp only at hs
    split at hs <;> try (simp only [reduceCtorEq] at hs; done)
    rename_i hp
    exact wi_call hw hp hs
  | finish f =>
    simp only at hs
    split at hs <;> try (simp only [reduceCtorEq] at hs; done)
    rename_i hp
    simp only [Option.some.injEq, Prod.mk.injEq] at hs
    obtain ⟨rfl, rfl⟩ := hs
    exact hw.go rfl rfl rfl rfl (by simp [hp.1, regOf]) rfl
  | reap f =>
    simp only at hs
    split at hs <;> try (simp only [reduceCtorEq] at hs; done)
    rename_i hp
    simp only [Option.some.injEq] at hs
    obtain ⟨h1, h2, h3, h4⟩ := release_wait { s with pc := upd s.pc f .reaped } f
    rw [hs] at h1 h2 h3 h4
    exact hw.go h1 h2 h3 h4 (by simp [hp, regOf]) rfl
  | elsewhere f n =>
    simp only at hs
    split at hs <;> try (simp only [reduceCtorEq] at hs; done)
    rename_i hp
    simp only [Option.some.injEq, Prod.mk.injEq] at hs
    obtain ⟨rfl, rfl⟩ := hs
    exact ⟨hw.w.elsewhere (by simp [hp, regOf]) n, hw.rd⟩
  | run f =>
    simp only [run] at hs
    split at hs <;> try (simp only [reduceCtorEq] at hs; done)
    · rename_i k g ep hp
      split at hs <;> try (simp only [reduceCtorEq] at hs; done)
      rename_i hr
      simp only [Option.some.injEq, Prod.mk.injEq] at hs
      obtain ⟨rfl, rfl⟩ := hs
      constructor
      · refine hw.w.resume (f := f) (r := ⟨g, ep, none, false⟩) (by simp [hp, regOf]) hr (by simp) ?_
        intro g'; simp only [upd_apply]; split <;> rfl
      · intro f' k' g' ep'
        simp only [upd_apply, consumeReady]
        split
        · intro e; cases e
        · exact hw.rd f' k' g' ep'
    · rename_i k g hp
      split at hs
      · rename_i g' _
        simp only [Option.some.injEq, Prod.mk.injEq] at hs
        obtain ⟨rfl, rfl⟩ := hs
        obtain ⟨h1, h2, h3, h4⟩ := release_wait { s with pc := upd s.pc f .idle, users := upd s.users k ((s.users k).erase f), hd := upd s.hd k (some none) } g'
        exact hw.go h1 h2 h3 h4 (by simp [hp, regOf]) rfl
      · simp only [Option.some.injEq, Prod.mk.injEq] at hs
        obtain ⟨rfl, rfl⟩ := hs
        exact hw.go rfl rfl rfl rfl (by simp [hp, regOf]) rfl
    · rename_i hp
      split at hs
      · simp only [Option.some.injEq, Prod.mk.injEq] at hs
        obtain ⟨rfl, rfl⟩ := hs
        constructor
        · refine (hw.w.notifyAll f (q' := upd s.q f []) (fun j => upd_apply _ _ _ _)).congr (fun _ => rfl) ?_
          intro g'; simp only [upd_apply]; split
          · subst_vars; rw [hp]; rfl
          · rfl
        · intro f' k' g' ep'
          simp only [upd_apply]
          split
          · intro e; cases e
          · intro e
            have h1 := hw.rd f' k' g' ep' e
            have h2 : f' ∈ liveList s.c (s.q f) ↔ _ := hw.w.mem_live_iff
            simp only [e, regOf, Option.some.injEq] at h2
            simp only [hw.w.ready_notifyAll, Bool.or_eq_true, decide_eq_true_eq, h2]
            split
            · subst_vars
              cases hr : s.c.ready f' <;> simp
            · rename_i hne
              rw [h1]
              constructor
              · rintro (h | ⟨r, rfl, h, -⟩)
                · exact h
                · exact absurd h hne
              · exact .inl
      · simp only [Option.some.injEq, Prod.mk.injEq] at hs
        obtain ⟨rfl, rfl⟩ := hs
        exact hw.go rfl rfl rfl rfl (by simp [hp, regOf]) rfl
    · rename_i hp
      split at hs
      all_goals
        simp only [Option.some.injEq, Prod.mk.injEq] at hs
        obtain ⟨rfl, rfl⟩ := hs
        exact hw.go rfl rfl rfl rfl (by simp [hp, regOf]) rfl

theorem reach_inv {s : State} {tr : List Obs} (h : Reach step init s tr) : Core s ∧ WI s ∧ ∀ f, .ub f ∉ tr := by
  refine Reach.inv (fun s tr => Core s ∧ WI s ∧ ∀ f, .ub f ∉ tr) ⟨core_init, wi_init, by simp⟩ ?_ h
  rintro s tr e s' o - ⟨h1, h2, h3⟩ hs
  obtain ⟨h4, h5⟩ := good_step h1 h2 hs
  exact ⟨h4, wi_step h1 h2 hs, by simp [h3, h5]⟩

end Verif.Fib
