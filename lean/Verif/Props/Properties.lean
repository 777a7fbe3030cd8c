import Verif.Properties

/-!
# Scheduling algorithms with properties: C55
-/

namespace Verif.Prop

/-! ## Specification -/

structure Spec where
  /-- the properties object of a fiber, once it has one -/
  own : Fid → Option Pid
  /-- the fiber and its properties object are gone -/
  gone : Fid → Bool
  /-- the algorithm in which a fiber is ready -/
  inn : Fid → Option Aid
  /-- a report of a change that is due -/
  due : Option (Aid × Fid × Pid)

def Spec.init : Spec := ⟨fun _ => none, fun _ => false, fun _ => none, none⟩

def after (l : Spec) : Obs → Spec
  | .born f p => { l with own := upd l.own f (some p) }
  | .given f p => { l with own := upd l.own f (some p) }
  | .seen a f _ => { l with inn := upd l.inn f (some a) }
  | .queued a f => { l with inn := upd l.inn f (some a) }
  | .picked _ f => { l with inn := upd l.inn f none }
  | .freed f _ => { l with gone := upd l.gone f true }
  | .changed f => { l with due := (l.inn f).bind fun a => (l.own f).map fun p => (a, f, p) }
  | .reported _ _ _ => { l with due := none }
  | _ => l

/-- Nobody owns `p`, or ever did. -/
def Spec.Fresh (l : Spec) (p : Pid) : Prop := ∀ f, l.own f ≠ some p

/-- With `tame`, the whole of C55; without, what remains: which object belongs to which fiber. -/
def ok (tame : Bool) (l : Spec) : Obs → Prop
  | .born f p => l.own f = none ∧ l.Fresh p ∧ (tame = true → l.due = none)
  | .given f p => l.own f = none ∧ l.Fresh p ∧ (tame = true → l.due = none)
  | .seen _ f p => l.own f = some p ∧ l.gone f = false ∧ l.inn f = none ∧ (tame = true → l.due = none)
  | .queued _ f => l.inn f = none ∧ tame = false
  | .picked a f => l.inn f = some a ∧ (tame = true → l.due = none)
  | .freed f p => l.own f = some p ∧ l.gone f = false ∧ l.inn f = none ∧ (tame = true → l.due = none)
  | .changed _ => tame = true → l.due = none
  | .reported a f p => l.own f = some p ∧ l.gone f = false ∧ (tame = true → l.due = some (a, f, p))
  | .failed _ => tame = false
  | .ub _ => tame = false

def Runs (tame : Bool) : Spec → List Obs → Prop
  | _, [] => True
  | l, o :: tr => ok tame l o ∧ Runs tame (after l o) tr

def replay (tr : List Obs) : Spec := tr.foldl after .init

theorem Runs.append {b : Bool} {l : Spec} {x y : List Obs} : Runs b l (x ++ y) ↔ Runs b l x ∧ Runs b (x.foldl after l) y := by
  induction x generalizing l with
  | nil => simp [Runs]
  | cons o x ih => simp only [List.cons_append, Runs, ih, List.foldl_cons]; exact and_assoc.symm

/-! ## Invariant -/

structure Core (s : State) (l : Spec) : Prop where
  own : ∀ f, l.gone f = false → l.own f = s.props f
  gon : ∀ f, l.gone f = true → s.life f = .dead
  olt : ∀ f p, l.own f = some p → p < s.nextP
  inn : ∀ f, l.inn f = s.link f
  due : s.tame = true → l.due = none
  q : ∀ f a, f ∈ s.queue a ↔ s.link f = some a
  nd : ∀ a, (s.queue a).Nodup
  ob : ∀ f p, s.props f = some p → ∃ o, s.obj p = some o ∧ o.ctx = f
  lt : ∀ f p, s.props f = some p → p < s.nextP
  ol : ∀ p o, s.obj p = some o → p < s.nextP
  unb : ∀ f, s.life f ≠ .alive → s.props f = none ∧ s.link f = none
  talg : s.tame = true → ∀ a k, s.alg a = some k → k = .typed 0
  tobj : s.tame = true → ∀ p o, s.obj p = some o → o.ty = 0
  tlink : s.tame = true → ∀ f a, s.link f = some a → s.alg a ≠ none ∧ ∃ p o, s.props f = some p ∧ s.obj p = some o ∧ o.algo = some a
  cura : ∀ t a, s.cur t = some a → s.alg a ≠ none
  curi : ∀ t t' a, s.cur t = some a → s.cur t' = some a → t = t'
  alt : ∀ a, s.nextA ≤ a → s.alg a = none

theorem core_init (b : Bool) : Core (init b) .init := by
  constructor <;> simp [init, Spec.init]

theorem Core.inj {s : State} {l : Spec} (h : Core s l) {f g : Fid} {p : Pid} (hf : s.props f = some p) (hg : s.props g = some p) : f = g := by
  obtain ⟨o, h1, h2⟩ := h.ob f p hf
  obtain ⟨o', h3, h4⟩ := h.ob g p hg
  rw [h1] at h3
  cases h3
  exact h2.symm.trans h4

/-- A fiber that is not ready is shown to an algorithm of the class of its properties. -/
theorem core_show {s : State} {l : Spec} (h : Core s l) {a : Aid} {f : Fid} {p : Pid} {o : Obj} {ty : Nat} (hl : s.link f = none) (hlife : s.life f = .alive)
    (ha : s.alg a = some (.typed ty)) (hp : s.props f = some p) (ho : s.obj p = some o) :
    Core (enqueue { s with obj := upd s.obj p (some { o with algo := some a }) } a f) (after l (.seen a f p)) := by
  have hof : o.ctx = f := by obtain ⟨o', h1, h2⟩ := h.ob f p hp; rw [ho] at h1; cases h1; exact h2
  constructor
  · exact h.own
  · exact h.gon
  · exact h.olt
  · intro g; simp only [after, enqueue, upd_apply, h.inn g]
  · exact h.due
  · intro g c
    simp only [enqueue, upd_apply]
    by_cases hgf : g = f
    · subst hgf
      by_cases hca : c = a
      · subst hca; simp
      · have : g ∉ s.queue c := fun hm => by rw [(h.q g c).1 hm] at hl; cases hl
        have hac : a ≠ c := fun h => hca h.symm
        simp [hca, this, hac]
    · by_cases hca : c = a
      · subst hca; simp [hgf, h.q g c]
      · simp [hca, hgf, h.q g c]
  · intro c
    simp only [enqueue, upd_apply]
    split
    · rename_i e; subst e
      have : f ∉ s.queue c := fun hm => by rw [(h.q f c).1 hm] at hl; cases hl
      rw [List.nodup_append]
      refine ⟨h.nd c, by simp, ?_⟩
      intro x hx y hy
      simp only [List.mem_singleton] at hy
      subst hy
      exact fun e => this (e ▸ hx)
    · exact h.nd c
  · intro g p' hg
    simp only [enqueue, upd_apply]
    split
    · rename_i e; subst e
      have := h.inj hg hp
      exact ⟨_, rfl, by rw [this]; exact hof⟩
    · exact h.ob g p' hg
  · exact h.lt
  · intro p' o' hp'
    simp only [enqueue, upd_apply] at hp' ⊢
    split at hp'
    · rename_i e; subst e; exact h.ol _ _ ho
    · exact h.ol _ _ hp'
  · intro g hg
    simp only [enqueue, upd_apply]
    have := h.unb g hg
    have hne : g ≠ f := by rintro rfl; exact hg hlife
    simp [hne, this]
  · exact h.talg
  · intro ht p' o' hp'
    simp only [enqueue, upd_apply] at hp'
    split at hp'
    · cases hp'; exact h.tobj ht p o ho
    · exact h.tobj ht p' o' hp'
  · intro ht g c hc
    simp only [enqueue, upd_apply] at hc ⊢
    split at hc
    · rename_i e; subst e
      cases hc
      exact ⟨by rw [ha]; simp, p, _, hp, by rw [if_pos rfl], rfl⟩
    · rename_i e
      obtain ⟨h1, p', o', h2, h3, h4⟩ := h.tlink ht g c hc
      have : p' ≠ p := by rintro rfl; exact e (h.inj h2 hp)
      exact ⟨h1, p', o', h2, by rw [if_neg this]; exact h3, h4⟩
  · exact h.cura
  · exact h.curi
  · exact h.alt

/-- A fiber gets a properties object. -/
theorem core_new {s : State} {l l' : Spec} (h : Core s l) {f : Fid} {ty : Nat} (hp : s.props f = none) (hl : s.link f = none) (hlife : s.life f = .alive)
    (hty : s.tame = true → ty = 0) (h' : l' = { l with own := upd l.own f (some s.nextP) }) :
    Core { s with props := upd s.props f (some s.nextP), obj := upd s.obj s.nextP (some ⟨f, none, ty⟩), nextP := s.nextP + 1 } l' := by
  subst h'
  constructor
  · intro g hg
    simp only [upd_apply]
    split
    · rfl
    · exact h.own g hg
  · exact h.gon
  · intro g p hg
    simp only [upd_apply] at hg ⊢
    split at hg
    · cases hg; exact Nat.lt_succ_self _
    · exact Nat.lt_succ_of_lt (h.olt g p hg)
  · exact h.inn
  · exact h.due
  · exact h.q
  · exact h.nd
  · intro g p hg
    simp only [upd_apply] at hg ⊢
    split at hg
    · rename_i e; subst e; cases hg; exact ⟨_, by rw [if_pos rfl], rfl⟩
    · have := h.lt g p hg
      rw [if_neg (Nat.ne_of_lt this)]
      exact h.ob g p hg
  · intro g p hg
    simp only [upd_apply] at hg ⊢
    split at hg
    · cases hg; exact Nat.lt_succ_self _
    · exact Nat.lt_succ_of_lt (h.lt g p hg)
  · intro p o hp'
    simp only [upd_apply] at hp' ⊢
    split at hp'
    · rename_i e; subst e; exact Nat.lt_succ_self _
    · exact Nat.lt_succ_of_lt (h.ol p o hp')
  · intro g hg
    have hne : g ≠ f := by rintro rfl; exact hg hlife
    have := h.unb g hg
    simp [upd_apply, hne, this]
  · exact h.talg
  · intro ht p o hp'
    simp only [upd_apply] at hp'
    split at hp'
    · cases hp'; exact hty ht
    · exact h.tobj ht p o hp'
  · intro ht g a hg
    obtain ⟨h1, p, o, h2, h3, h4⟩ := h.tlink ht g a hg
    have hne : g ≠ f := by rintro rfl; rw [hg] at hl; cases hl
    have hlt := h.lt g p h2
    refine ⟨h1, p, o, ?_, ?_, h4⟩
    · simp only [upd_apply, if_neg hne]; exact h2
    · simp only [upd_apply]; rw [if_neg (Nat.ne_of_lt hlt)]; exact h3
  · exact h.cura
  · exact h.curi
  · exact h.alt

theorem Core.fresh {s : State} {l : Spec} (h : Core s l) : l.Fresh s.nextP :=
  fun f e => Nat.lt_irrefl _ (h.olt f _ e)

theorem Core.ngone {s : State} {l : Spec} (h : Core s l) {f : Fid} (hf : s.life f = .alive) : l.gone f = false := by
  cases hg : l.gone f with
  | false => rfl
  | true => rw [h.gon f hg] at hf; cases hf

theorem core_queue {s : State} {l : Spec} (h : Core s l) {a : Aid} {f : Fid} (hl : s.link f = none) (hlife : s.life f = .alive)
    (ht : s.tame = false) : Core (enqueue s a f) (after l (.queued a f)) := by
  constructor
  · exact h.own
  · exact h.gon
  · exact h.olt
  · intro g; simp only [after, enqueue, upd_apply, h.inn g]
  · exact h.due
  · intro g c
    simp only [enqueue, upd_apply]
    by_cases hgf : g = f
    · subst hgf
      by_cases hca : c = a
      · subst hca; simp
      · have : g ∉ s.queue c := fun hm => by rw [(h.q g c).1 hm] at hl; cases hl
        have hac : a ≠ c := fun h => hca h.symm
        simp [hca, this, hac]
    · by_cases hca : c = a
      · subst hca; simp [hgf, h.q g c]
      · simp [hca, hgf, h.q g c]
  · intro c
    simp only [enqueue, upd_apply]
    split
    · rename_i e; subst e
      have : f ∉ s.queue c := fun hm => by rw [(h.q f c).1 hm] at hl; cases hl
      rw [List.nodup_append]
      refine ⟨h.nd c, by simp, ?_⟩
      intro x hx y hy
      simp only [List.mem_singleton] at hy
      subst hy
      exact fun e => this (e ▸ hx)
    · exact h.nd c
  · exact h.ob
  · exact h.lt
  · exact h.ol
  · intro g hg
    simp only [enqueue, upd_apply]
    have := h.unb g hg
    have hne : g ≠ f := by rintro rfl; exact hg hlife
    simp [hne, this]
  · exact h.talg
  · exact h.tobj
  · intro ht'; exact absurd (ht.symm.trans ht') (by simp)
  · exact h.cura
  · exact h.curi
  · exact h.alt

theorem core_unlink {s : State} {l : Spec} (h : Core s l) {a : Aid} {f : Fid} (hl : s.link f = some a) :
    Core (unlink s a f) (after l (.picked a f)) := by
  constructor
  · exact h.own
  · exact h.gon
  · exact h.olt
  · intro g; simp only [after, unlink, upd_apply, h.inn g]
  · exact h.due
  · intro g c
    simp only [unlink, upd_apply]
    by_cases hgf : g = f
    · subst hgf
      rw [if_pos rfl]
      by_cases hca : c = a
      · subst hca; rw [if_pos rfl]
        simp [(h.nd c).mem_erase_iff]
      · rw [if_neg hca, h.q g c, hl]
        simp only [Option.some.injEq, reduceCtorEq, iff_false]
        exact fun e => hca e.symm
    · rw [if_neg hgf]
      by_cases hca : c = a
      · subst hca; rw [if_pos rfl, (h.nd c).mem_erase_iff, h.q g c]
        simp [hgf]
      · rw [if_neg hca, h.q g c]
  · intro c
    simp only [unlink, upd_apply]
    split
    · rename_i e; subst e; exact (h.nd c).erase f
    · exact h.nd c
  · exact h.ob
  · exact h.lt
  · exact h.ol
  · intro g hg
    simp only [unlink, upd_apply]
    have := h.unb g hg
    simp [this]
  · exact h.talg
  · exact h.tobj
  · intro ht g c hc
    simp only [unlink, upd_apply] at hc
    split at hc
    · cases hc
    · exact h.tlink ht g c hc
  · exact h.cura
  · exact h.curi
  · exact h.alt

/-- What a call into the algorithm `a` for `f` leaves alone. -/
structure Kept (a : Aid) (s s' : State) : Prop where
  tame : s'.tame = s.tame
  life : s'.life = s.life
  alg : s'.alg = s.alg
  cur : s'.cur = s.cur
  nextA : s'.nextA = s.nextA
  queue : ∀ c, c ≠ a → s'.queue c = s.queue c

/-- The outcome of a call. -/
def Good (l : Spec) (tame : Bool) (r : State × List Obs) : Prop :=
  Runs tame l r.2 ∧ (r.1.broken = false → Core r.1 (r.2.foldl after l)) ∧ (tame = true → r.1.broken = false)

theorem show_good {s : State} {l : Spec} (h : Core s l) (hb : s.broken = false) {a : Aid} {f : Fid} {p : Pid} {ty : Nat} (hl : s.link f = none)
    (hlife : s.life f = .alive) (ha : s.alg a = some (.typed ty)) (hp : s.props f = some p) :
    Good l s.tame (show_ s a ty f p) ∧ Kept a s (show_ s a ty f p).1 := by
  obtain ⟨o, ho, hc⟩ := h.ob f p hp
  unfold show_
  rw [ho]
  dsimp only
  split
  · rename_i hty
    refine ⟨⟨⟨⟨(h.own f (h.ngone hlife)).trans hp, h.ngone hlife, (h.inn f).trans hl, h.due⟩, trivial⟩, fun _ => core_show h hl hlife ha hp ho, fun _ => hb⟩, ?_⟩
    refine ⟨rfl, rfl, rfl, rfl, rfl, ?_⟩
    intro c hca
    simp [enqueue, upd_apply, hca]
  · rename_i hty
    have ht : s.tame = false := by
      refine Classical.byContradiction fun ht => hty ?_
      have ht : s.tame = true := by simpa using ht
      have h1 := h.tobj ht p o ho
      have h2 := h.talg ht a _ ha
      cases h2
      exact h1
    refine ⟨⟨⟨ht, trivial⟩, fun h => absurd h (by simp), fun h => ?_⟩, ⟨rfl, rfl, rfl, rfl, rfl, fun _ _ => rfl⟩⟩
    exact absurd (ht.symm.trans h) (by simp)

theorem awakened_good {s : State} {l : Spec} (h : Core s l) (hb : s.broken = false) {a : Aid} {f : Fid} (hl : s.link f = none)
    (hlife : s.life f = .alive) (ha : s.alg a ≠ none) :
    Good l s.tame (awakened s a f) ∧ Kept a s (awakened s a f).1 := by
  unfold awakened
  cases hk : s.alg a with
  | none => exact absurd hk ha
  | some k =>
    cases k with
    | plain =>
      have ht : s.tame = false := by
        refine Classical.byContradiction fun ht => ?_
        have ht : s.tame = true := by simpa using ht
        exact absurd (h.talg ht a _ hk) (by simp)
      refine ⟨⟨⟨⟨(h.inn f).trans hl, ht⟩, trivial⟩, fun _ => core_queue h hl hlife ht, fun h => ?_⟩, ⟨rfl, rfl, rfl, rfl, rfl, ?_⟩⟩
      · exact absurd (ht.symm.trans h) (by simp)
      · intro c hca; simp [enqueue, upd_apply, hca]
    | typed ty =>
      dsimp only
      cases hp : s.props f with
      | some p => exact show_good h hb hl hlife hk hp
      | none =>
        dsimp only
        have hty : s.tame = true → ty = 0 := fun ht => by
          have := h.talg ht a _ hk
          cases this; rfl
        have h1 := core_new (l' := after l (.given f s.nextP)) h hp hl hlife hty rfl
        obtain ⟨⟨g1, g2, g3⟩, kk⟩ := show_good (a := a) (f := f) (p := s.nextP) (ty := ty) h1 hb hl hlife hk (by simp [upd_apply])
        refine ⟨⟨⟨⟨(h.own f (h.ngone hlife)).trans hp, h.fresh, h.due⟩, g1⟩, g2, g3⟩, ?_⟩
        exact ⟨kk.tame, kk.life, kk.alg, kk.cur, kk.nextA, kk.queue⟩

theorem Good.cons {s1 : State} {l : Spec} {b : Bool} {x : Obs} {r : State × List Obs} (h : Good (after l x) b r) (hx : ok b l x) (hr : r.1 = s1) :
    Good l b (s1, x :: r.2) := by
  subst hr
  exact ⟨⟨hx, h.1⟩, h.2.1, h.2.2⟩

theorem moveAll_good {a b : Aid} (hab : a ≠ b) : ∀ (fs : List Fid) {s : State} {l : Spec}, Core s l → s.broken = false → s.alg b ≠ none → s.queue a = fs →
    Good l s.tame (moveAll s a b fs) ∧ (moveAll s a b fs).1.tame = s.tame ∧ (moveAll s a b fs).1.alg = s.alg ∧ (moveAll s a b fs).1.cur = s.cur ∧
      (moveAll s a b fs).1.nextA = s.nextA ∧ ((moveAll s a b fs).1.broken = false → (moveAll s a b fs).1.queue a = []) := by
  intro fs
  induction fs with
  | nil =>
    intro s l h hb ha hq
    exact ⟨⟨trivial, fun _ => h, fun _ => hb⟩, rfl, rfl, rfl, rfl, fun _ => hq⟩
  | cons f fs ih =>
    intro s l h hb ha hq
    have hl : s.link f = some a := (h.q f a).1 (by rw [hq]; simp)
    have hlife : s.life f = .alive := Classical.byContradiction fun hn => by
      have := (h.unb f hn).2
      rw [this] at hl; cases hl
    have hu := core_unlink h hl
    obtain ⟨g, kk⟩ := awakened_good (a := b) (f := f) hu hb (by simp [unlink, upd_apply]) hlife ha
    have hqa : (awakened (unlink s a f) b f).1.queue a = fs := by
      rw [kk.queue a hab]
      simp [unlink, upd_apply, hq]
    have hok : ok s.tame l (.picked a f) := ⟨(h.inn f).trans hl, h.due⟩
    unfold moveAll
    dsimp only
    by_cases hbr : (awakened (unlink s a f) b f).1.broken = true
    · rw [if_pos hbr]
      exact ⟨g.cons hok rfl, kk.tame, kk.alg, kk.cur, kk.nextA, fun h => absurd (hbr.symm.trans h) (by simp)⟩
    · rw [if_neg hbr]
      have hbr : (awakened (unlink s a f) b f).1.broken = false := by simpa using hbr
      obtain ⟨g', k1, k2, k3, k4, k5⟩ := ih (g.2.1 hbr) hbr (by rw [kk.alg]; exact ha) hqa
      rw [kk.tame] at g'
      refine ⟨⟨⟨hok, Runs.append.2 ⟨g.1, g'.1⟩⟩, ?_, g'.2.2⟩, k1.trans kk.tame, k2.trans kk.alg, k3.trans kk.cur, k4.trans kk.nextA, k5⟩
      intro hbb
      have := g'.2.1 hbb
      simpa [List.foldl_append] using this

theorem notify_good {s : State} {l : Spec} (h : Core s l) (hb : s.broken = false) {f : Fid} (hlife : s.life f = .alive)
    (ht : s.tame = false ∨ (((s.props f).bind s.obj).bind (·.algo)).isSome = true) : Good l s.tame (notify s f) ∧ (notify s f).1.tame = s.tame := by
  have tf : s.tame = false → Good l s.tame ({ s with broken := true }, [.changed f, .failed f]) := fun ht => by
    refine ⟨⟨fun h => absurd (ht.symm.trans h) (by simp), ht, trivial⟩, fun h => absurd h (by simp), fun h => absurd (ht.symm.trans h) (by simp)⟩
  have tu : s.tame = false → Good l s.tame ({ s with broken := true }, [.changed f, .ub f]) := fun ht => by
    refine ⟨⟨fun h => absurd (ht.symm.trans h) (by simp), ht, trivial⟩, fun h => absurd h (by simp), fun h => absurd (ht.symm.trans h) (by simp)⟩
  unfold notify
  cases hp : s.props f with
  | none =>
    rw [hp] at ht
    exact ⟨tf (by simpa using ht), rfl⟩
  | some p =>
    obtain ⟨o, ho, hc⟩ := h.ob f p hp
    rw [hp] at ht
    simp only [Option.bind_some, ho, Option.map_some, hc] at ht ⊢
    have hown : l.own f = some p := (h.own f (h.ngone hlife)).trans hp
    cases hal : o.algo with
    | none =>
      rw [hal] at ht
      exact ⟨tf (by simpa using ht), rfl⟩
    | some a =>
      dsimp only
      cases hl : s.link f with
      | none =>
        rw [if_neg (by simp)]
        refine ⟨⟨⟨h.due, trivial⟩, fun _ => ?_, fun _ => hb⟩, rfl⟩
        have : after l (.changed f) = { l with due := none } := by simp [after, h.inn f, hl]
        show Core s (after l (.changed f))
        rw [this]
        exact ⟨h.own, h.gon, h.olt, h.inn, fun _ => rfl, h.q, h.nd, h.ob, h.lt, h.ol, h.unb, h.talg, h.tobj, h.tlink, h.cura, h.curi, h.alt⟩
      | some b =>
        rw [if_pos (by simp)]
        have tlk : s.tame = true → a = b ∧ s.alg a = some (.typed 0) ∧ o.ty = 0 := fun ht => by
          obtain ⟨h1, p', o', h2, h3, h4⟩ := h.tlink ht f b hl
          rw [hp] at h2; cases h2
          rw [ho] at h3; cases h3
          rw [hal] at h4; cases h4
          refine ⟨rfl, ?_, h.tobj ht p o ho⟩
          cases hk : s.alg a with
          | none => exact absurd hk h1
          | some k => rw [h.talg ht a k hk]
        have tb : (¬ ∃ ty, s.alg a = some (.typed ty) ∧ o.ty = ty) → s.tame = false := fun hn => by
          refine Classical.byContradiction fun ht => ?_
          obtain ⟨_, h2, h3⟩ := tlk (by simpa using ht)
          exact hn ⟨0, h2, h3⟩
        cases hk : s.alg a with
        | none => exact ⟨tu (tb (by rw [hk]; simp)), rfl⟩
        | some k =>
          cases k with
          | plain => exact ⟨tu (tb (by rw [hk]; simp)), rfl⟩
          | typed ty =>
            dsimp only
            split
            · rename_i hty
              refine ⟨⟨⟨h.due, ⟨?_, ?_, ?_⟩, trivial⟩, fun _ => ?_, fun _ => hb⟩, rfl⟩
              · exact hown
              · exact h.ngone hlife
              · intro ht
                obtain ⟨h1, _⟩ := tlk ht
                subst h1
                simp [after, h.inn f, hl, hown]
              · exact ⟨h.own, h.gon, h.olt, h.inn, fun _ => rfl, h.q, h.nd, h.ob, h.lt, h.ol, h.unb, h.talg, h.tobj, h.tlink, h.cura, h.curi, h.alt⟩
            · rename_i hty
              exact ⟨tu (tb (by rw [hk]; rintro ⟨ty', e1, e2⟩; cases e1; exact hty e2)), rfl⟩

theorem step_good {s s' : State} {l : Spec} {e : Event} {o : List Obs} (h : Core s l) (hs : step s e = some (s', o)) :
    Good l s.tame (s', o) ∧ s'.tame = s.tame := by
  unfold step at hs
  by_cases hb : s.broken = true
  · rw [if_pos hb] at hs; cases hs
  rw [if_neg hb] at hs
  have hb : s.broken = false := by simpa using hb
  cases e with
  | setAlgo t k =>
    dsimp only at hs
    split at hs
    case isFalse => cases hs
    rename_i hk
    have hk : s.tame = true → k = .typed 0 := fun ht => hk.resolve_left (by rw [ht]; simp)
    have hn : s.alg s.nextA = none := h.alt _ (Nat.le_refl _)
    have hne : ∀ t a, s.cur t = some a → a ≠ s.nextA := fun t a hc e => by
      have := h.cura t a hc
      rw [e] at this
      exact this hn
    have h1 : Core { s with alg := upd s.alg s.nextA (some k), nextA := s.nextA + 1 } l := by
      refine ⟨h.own, h.gon, h.olt, h.inn, h.due, h.q, h.nd, h.ob, h.lt, h.ol, h.unb, ?_, h.tobj, ?_, ?_, h.curi, ?_⟩
      · intro ht a k' ha
        simp only [upd_apply] at ha
        split at ha
        · cases ha; exact hk ht
        · exact h.talg ht a k' ha
      · intro ht f a hf
        obtain ⟨x, y⟩ := h.tlink ht f a hf
        refine ⟨?_, y⟩
        simp only [upd_apply]
        split
        · simp
        · exact x
      · intro t a ht
        simp only [upd_apply]
        split
        · simp
        · exact h.cura t a ht
      · intro a ha
        simp only [upd_apply]
        rw [if_neg (fun e => by subst e; exact Nat.not_succ_le_self _ ha)]
        exact h.alt a (Nat.le_of_succ_le ha)
    cases hc : s.cur t with
    | none =>
      rw [hc] at hs
      cases hs
      refine ⟨⟨trivial, fun _ => ?_, fun _ => hb⟩, rfl⟩
      refine ⟨h1.own, h1.gon, h1.olt, h1.inn, h1.due, h1.q, h1.nd, h1.ob, h1.lt, h1.ol, h1.unb, h1.talg, h1.tobj, h1.tlink, ?_, ?_, h1.alt⟩
      · intro t' a ht
        simp only [upd_apply] at ht ⊢
        split at ht
        · cases ht; simp
        · split
          · simp
          · exact h.cura t' a ht
      · intro t1 t2 a e1 e2
        simp only [upd_apply] at e1 e2
        split at e1 <;> split at e2
        · rename_i x y; exact x.trans y.symm
        · cases e1; exact absurd rfl (hne _ _ e2)
        · cases e2; exact absurd rfl (hne _ _ e1)
        · exact h.curi t1 t2 a e1 e2
    | some a =>
      rw [hc] at hs
      dsimp only at hs
      have hab := hne t a hc
      obtain ⟨g, k1, k2, k3, k4, k5⟩ := moveAll_good (b := s.nextA) hab (s.queue a) h1 hb (by simp [upd_apply]) rfl
      by_cases hbr : (moveAll { s with alg := upd s.alg s.nextA (some k), nextA := s.nextA + 1 } a s.nextA (s.queue a)).1.broken = true
      · rw [if_pos hbr] at hs
        cases hs
        exact ⟨g, k1⟩
      · rw [if_neg hbr] at hs
        have hbr : (moveAll { s with alg := upd s.alg s.nextA (some k), nextA := s.nextA + 1 } a s.nextA (s.queue a)).1.broken = false := by simpa using hbr
        cases hs
        have hm := g.2.1 hbr
        have hq := k5 hbr
        refine ⟨⟨g.1, fun _ => ?_, fun _ => hbr⟩, k1⟩
        have hnl : ∀ f, (moveAll { s with alg := upd s.alg s.nextA (some k), nextA := s.nextA + 1 } a s.nextA (s.queue a)).1.link f ≠ some a := by
          intro f hf
          have := (hm.q f a).2 hf
          rw [hq] at this; cases this
        refine ⟨hm.own, hm.gon, hm.olt, hm.inn, hm.due, hm.q, hm.nd, hm.ob, hm.lt, hm.ol, hm.unb, ?_, hm.tobj, ?_, ?_, ?_, ?_⟩
        · intro ht c k' hc'
          simp only [upd_apply] at hc'
          split at hc'
          · cases hc'
          · exact hm.talg ht c k' hc'
        · intro ht f c hf
          obtain ⟨x, y⟩ := hm.tlink ht f c hf
          refine ⟨?_, y⟩
          simp only [upd_apply]
          rw [if_neg (fun e => by subst e; exact hnl f hf)]
          exact x
        · intro t' c ht
          simp only [upd_apply] at ht ⊢
          split at ht
          · cases ht
            rw [if_neg hab.symm, k2]
            simp [upd_apply]
          · rename_i hne'
            rw [k3] at ht
            rw [if_neg (fun e => by subst e; exact hne' (h.curi t' t c ht hc))]
            exact hm.cura t' c (by rw [k3]; exact ht)
        · intro t1 t2 c e1 e2
          simp only [upd_apply, k3] at e1 e2
          split at e1 <;> split at e2
          · rename_i x y; exact x.trans y.symm
          · cases e1; exact absurd rfl (hne _ _ e2)
          · cases e2; exact absurd rfl (hne _ _ e1)
          · exact h.curi t1 t2 c e1 e2
        · intro c hc'
          simp only [upd_apply]
          split
          · rfl
          · exact hm.alt c hc'
  | create t f own post =>
    dsimp only at hs
    cases hc : s.cur t with
    | none => rw [hc] at hs; cases hs
    | some a =>
      rw [hc] at hs
      dsimp only at hs
      split at hs
      case isFalse => cases hs
      rename_i hg
      obtain ⟨hun, hty⟩ := hg
      have hu := h.unb f (by rw [hun]; simp)
      have h1 : Core { s with life := upd s.life f .alive } l := by
        refine ⟨h.own, ?_, h.olt, h.inn, h.due, h.q, h.nd, h.ob, h.lt, h.ol, ?_, h.talg, h.tobj, h.tlink, h.cura, h.curi, h.alt⟩
        · intro g hg
          simp only [upd_apply]
          split
          · rename_i e; subst e; rw [h.gon g hg] at hun; cases hun
          · exact h.gon g hg
        · intro g hg
          simp only [upd_apply] at hg
          split at hg
          · exact absurd rfl hg
          · exact h.unb g hg
      have hlf : (upd s.life f Life.alive) f = .alive := by simp [upd_apply]
      have hng : l.gone f = false := h1.ngone hlf
      have ha := h.cura t a hc
      cases own with
      | none =>
        dsimp only at hs
        split at hs
        · obtain ⟨g, kk⟩ := awakened_good (a := a) (f := f) h1 hb hu.2 hlf ha
          rw [Option.some.inj hs] at g kk
          exact ⟨g, kk.tame⟩
        · cases hs
          exact ⟨⟨trivial, fun _ => h1, fun _ => hb⟩, rfl⟩
      | some ty =>
        dsimp only at hs
        have hty : s.tame = true → ty = 0 := fun ht => by
          rcases hty with h | h | h
          · rw [ht] at h; cases h
          · cases h
          · cases h; rfl
        have h2 := core_new (l' := after l (.born f s.nextP)) h1 hu.1 hu.2 hlf hty rfl
        have hok : ok s.tame l (.born f s.nextP) := ⟨(h.own f hng).trans hu.1, h.fresh, h.due⟩
        split at hs
        · cases hs
          obtain ⟨g, kk⟩ := awakened_good (a := a) (f := f) h2 hb hu.2 hlf ha
          exact ⟨g.cons hok rfl, kk.tame⟩
        · cases hs
          exact ⟨⟨⟨hok, trivial⟩, fun _ => h2, fun _ => hb⟩, rfl⟩
  | wake t f =>
    dsimp only at hs
    cases hc : s.cur t with
    | none => rw [hc] at hs; cases hs
    | some a =>
      rw [hc] at hs
      dsimp only at hs
      split at hs
      case isFalse => cases hs
      rename_i hg
      obtain ⟨g, kk⟩ := awakened_good (a := a) (f := f) h hb hg.2 hg.1 (h.cura t a hc)
      have hs := Option.some.inj hs
      rw [hs] at g kk
      exact ⟨g, kk.tame⟩
  | pick t f =>
    dsimp only at hs
    cases hc : s.cur t with
    | none => rw [hc] at hs; cases hs
    | some a =>
      rw [hc] at hs
      dsimp only at hs
      split at hs
      case isFalse => cases hs
      rename_i hg
      cases hs
      have hl := (h.q f a).1 hg
      exact ⟨⟨⟨⟨(h.inn f).trans hl, h.due⟩, trivial⟩, fun _ => core_unlink h hl, fun _ => hb⟩, rfl⟩
  | change f =>
    dsimp only at hs
    split at hs
    case isFalse => cases hs
    rename_i hg
    have := notify_good h hb hg.1 hg.2
    rw [Option.some.inj hs] at this
    exact this
  | destroy f =>
    dsimp only at hs
    split at hs
    case isFalse => cases hs
    rename_i hg
    obtain ⟨hal, hlk⟩ := hg
    cases hp : s.props f with
    | none =>
      rw [hp] at hs
      cases hs
      refine ⟨⟨trivial, fun _ => ?_, fun _ => hb⟩, rfl⟩
      refine ⟨h.own, ?_, h.olt, h.inn, h.due, h.q, h.nd, h.ob, h.lt, h.ol, ?_, h.talg, h.tobj, h.tlink, h.cura, h.curi, h.alt⟩
      · intro g hg
        simp only [upd_apply]
        split
        · rfl
        · exact h.gon g hg
      · intro g hg
        simp only [upd_apply] at hg
        split at hg
        · rename_i e; subst e; exact ⟨hp, hlk⟩
        · exact h.unb g hg
    | some p =>
      rw [hp] at hs
      cases hs
      have hng := h.ngone hal
      refine ⟨⟨⟨⟨(h.own f hng).trans hp, hng, (h.inn f).trans hlk, h.due⟩, trivial⟩, fun _ => ?_, fun _ => hb⟩, rfl⟩
      refine ⟨?_, ?_, h.olt, h.inn, h.due, h.q, h.nd, ?_, ?_, ?_, ?_, h.talg, ?_, ?_, h.cura, h.curi, h.alt⟩
      · intro g hg
        simp only [after, List.foldl, upd_apply] at hg ⊢
        split at hg
        · cases hg
        · rename_i e
          rw [if_neg e]; exact h.own g hg
      · intro g hg
        simp only [after, List.foldl, upd_apply] at hg ⊢
        split at hg
        · rename_i e; rw [if_pos e]
        · rename_i e
          rw [if_neg e]; exact h.gon g hg
      · intro g p' hg
        simp only [upd_apply] at hg ⊢
        split at hg
        · cases hg
        · rename_i e
          rw [if_neg (fun e' => by subst e'; exact e (h.inj hg hp))]
          exact h.ob g p' hg
      · intro g p' hg
        simp only [upd_apply] at hg
        split at hg
        · cases hg
        · exact h.lt g p' hg
      · intro p' o' hg
        simp only [upd_apply] at hg
        split at hg
        · cases hg
        · exact h.ol p' o' hg
      · intro g hg
        simp only [upd_apply] at hg ⊢
        split at hg
        · rename_i e; subst e; exact ⟨by simp, hlk⟩
        · rename_i e; rw [if_neg e]; exact h.unb g hg
      · intro ht p' o' hg
        simp only [upd_apply] at hg
        split at hg
        · cases hg
        · exact h.tobj ht p' o' hg
      · intro ht g a hg
        obtain ⟨x, p', o', h2, h3, h4⟩ := h.tlink ht g a hg
        have e : g ≠ f := by rintro rfl; rw [hlk] at hg; cases hg
        refine ⟨x, p', o', ?_, ?_, h4⟩
        · simp only [upd_apply, if_neg e]; exact h2
        · simp only [upd_apply]
          rw [if_neg (fun e' => by subst e'; exact e (h.inj h2 hp))]
          exact h3

theorem reach_good {b : Bool} {s : State} {tr : List Obs} (h : Reach step (init b) s tr) :
    Runs b .init tr ∧ (s.broken = false → Core s (replay tr)) ∧ (b = true → s.broken = false) ∧ s.tame = b := by
  refine h.inv (fun s tr => Runs b .init tr ∧ (s.broken = false → Core s (replay tr)) ∧ (b = true → s.broken = false) ∧ s.tame = b)
    ⟨trivial, fun _ => core_init b, fun _ => rfl, rfl⟩ ?_
  intro s tr e s' o _ ⟨h1, h2, h3, h4⟩ hs
  have hb : s.broken = false := by
    cases hbb : s.broken with
    | false => rfl
    | true => simp [step, hbb] at hs
  obtain ⟨⟨g1, g2, g3⟩, g4⟩ := step_good (h2 hb) hs
  rw [h4] at g1 g3 g4
  refine ⟨Runs.append.2 ⟨h1, g1⟩, ?_, g3, g4⟩
  intro hb'
  have := g2 hb'
  simpa [replay, List.foldl_append] using this

/-! ## C55 -/

/-- C55 when every algorithm is an `algorithm_with_properties` over one properties class, fibers are created with properties of that
class or none, and properties of a fiber are changed only after an algorithm has seen it. Not covered: the other cases, in which
it fails (below). -/
theorem C55_conforms_partial {s : State} {tr : List Obs} (h : Reach step (init true) s tr) : Runs true .init tr ∧ (replay tr).due = none := by
  obtain ⟨h1, h2, h3, h4⟩ := reach_good h
  exact ⟨h1, (h2 (h3 rfl)).due h4⟩

/-- Whatever algorithms are used, and however: a fiber gets its properties before an algorithm with properties sees it, no two
fibers share them, and an algorithm is only ever shown, or told about, the properties the fiber got first. -/
theorem C55_own {b : Bool} {s : State} {tr : List Obs} (h : Reach step (init b) s tr) : Runs b .init tr := (reach_good h).1

/-- The properties object of which fiber an observation mentions. -/
def Obs.mentions : Obs → Option (Fid × Pid)
  | .born f p => some (f, p)
  | .given f p => some (f, p)
  | .seen _ f p => some (f, p)
  | .reported _ f p => some (f, p)
  | .freed f p => some (f, p)
  | _ => none

theorem Runs.own_mono {b : Bool} {tr : List Obs} : ∀ {l : Spec}, Runs b l tr → ∀ f p, l.own f = some p → (tr.foldl after l).own f = some p := by
  induction tr with
  | nil => intro l _ f p h; exact h
  | cons o tr ih =>
    intro l h f p hp
    refine ih h.2 f p ?_
    have ho := h.1
    cases o with
    | born g q =>
      have : f ≠ g := by rintro rfl; rw [ho.1] at hp; cases hp
      simp [after, upd_apply, this, hp]
    | given g q =>
      have : f ≠ g := by rintro rfl; rw [ho.1] at hp; cases hp
      simp [after, upd_apply, this, hp]
    | _ => exact hp

theorem Runs.mention_own {b : Bool} {tr : List Obs} : ∀ {l : Spec}, Runs b l tr → ∀ o ∈ tr, ∀ f p, o.mentions = some (f, p) →
    (tr.foldl after l).own f = some p := by
  induction tr with
  | nil => intro l _ o ho; cases ho
  | cons x tr ih =>
    intro l h o ho f p hm
    rcases List.mem_cons.1 ho with rfl | ho
    · refine h.2.own_mono f p ?_
      have hx := h.1
      cases o <;> simp only [Obs.mentions, Option.some.injEq, Prod.mk.injEq, reduceCtorEq] at hm
      case born => obtain ⟨rfl, rfl⟩ := hm; simp [after, upd_apply]
      case given => obtain ⟨rfl, rfl⟩ := hm; simp [after, upd_apply]
      all_goals obtain ⟨rfl, rfl⟩ := hm; exact hx.1
    · exact ih h.2 o ho f p hm

/-- A fiber has the same properties for life. -/
theorem C55_same_for_life {b : Bool} {s : State} {tr : List Obs} (h : Reach step (init b) s tr) {o o' : Obs} (ho : o ∈ tr) (ho' : o' ∈ tr)
    {f : Fid} {p p' : Pid} (hm : o.mentions = some (f, p)) (hm' : o'.mentions = some (f, p')) : p = p' :=
  Option.some.inj (((C55_own h).mention_own o ho f p hm).symm.trans ((C55_own h).mention_own o' ho' f p' hm'))

theorem Runs.own_inj {b : Bool} {tr : List Obs} : ∀ {l : Spec}, Runs b l tr → (∀ f g p, l.own f = some p → l.own g = some p → f = g) →
    ∀ f g p, (tr.foldl after l).own f = some p → (tr.foldl after l).own g = some p → f = g := by
  induction tr with
  | nil => intro l _ h; exact h
  | cons x tr ih =>
    intro l h hi
    refine ih h.2 ?_
    have hx := h.1
    have key : ∀ (f0 : Fid) (p0 : Pid), l.Fresh p0 → ∀ f g p, upd l.own f0 (some p0) f = some p → upd l.own f0 (some p0) g = some p → f = g := by
      intro f0 p0 hf f g p e1 e2
      simp only [upd_apply] at e1 e2
      split at e1 <;> split at e2
      · rename_i x y; exact x.trans y.symm
      · cases e1; exact absurd e2 (hf _)
      · cases e2; exact absurd e1 (hf _)
      · exact hi _ _ _ e1 e2
    cases x with
    | born f0 p0 => exact key f0 p0 hx.2.1
    | given f0 p0 => exact key f0 p0 hx.2.1
    | _ => exact hi

/-- No two fibers have the same properties object. -/
theorem C55_not_shared {b : Bool} {s : State} {tr : List Obs} (h : Reach step (init b) s tr) {o o' : Obs} (ho : o ∈ tr) (ho' : o' ∈ tr)
    {f g : Fid} {p : Pid} (hm : o.mentions = some (f, p)) (hm' : o'.mentions = some (g, p)) : f = g :=
  (C55_own h).own_inj (by simp [Spec.init]) f g p ((C55_own h).mention_own o ho f p hm) ((C55_own h).mention_own o' ho' g p hm')

theorem own_source {x : List Obs} : ∀ {l : Spec} {f : Fid} {p : Pid}, (x.foldl after l).own f = some p → l.own f = some p ∨ Obs.born f p ∈ x ∨ Obs.given f p ∈ x := by
  induction x with
  | nil => intro l f p h; exact Or.inl h
  | cons o x ih =>
    intro l f p h
    rcases ih h with h1 | h1 | h1
    · cases o with
      | born g q =>
        simp only [after, upd_apply] at h1
        by_cases e : f = g
        · rw [if_pos e] at h1; cases h1; subst e; exact Or.inr (Or.inl (by simp))
        · rw [if_neg e] at h1; exact Or.inl h1
      | given g q =>
        simp only [after, upd_apply] at h1
        by_cases e : f = g
        · rw [if_pos e] at h1; cases h1; subst e; exact Or.inr (Or.inr (by simp))
        · rw [if_neg e] at h1; exact Or.inl h1
      | _ => exact Or.inl h1
    · exact Or.inr (Or.inl (List.mem_cons_of_mem _ h1))
    · exact Or.inr (Or.inr (List.mem_cons_of_mem _ h1))

/-- When an algorithm sees a fiber ready, the fiber has got its properties before. -/
theorem C55_before_seen {b : Bool} {s : State} {x y : List Obs} {a : Aid} {f : Fid} {p : Pid} (h : Reach step (init b) s (x ++ .seen a f p :: y)) :
    Obs.born f p ∈ x ∨ Obs.given f p ∈ x := by
  have h1 := (Runs.append.1 (C55_own h)).2.1.1
  rcases own_source h1 with h | h
  · simp [Spec.init] at h
  · exact h

/-- Where `f` is ready after `x`: in the algorithm that saw it last, unless it was picked since. -/
def readyIn (f : Fid) (x : List Obs) : Option Aid :=
  x.foldl (fun r o => match o with
    | .seen a g _ => if g = f then some a else r
    | .picked _ g => if g = f then none else r
    | _ => r) none

theorem readyIn_eq {x : List Obs} : ∀ {l : Spec}, Runs true l x → ∀ f, x.foldl (fun r o => match o with
    | .seen a g _ => if g = f then some a else r
    | .picked _ g => if g = f then none else r
    | _ => r) (l.inn f) = (x.foldl after l).inn f := by
  induction x with
  | nil => intro l _ f; rfl
  | cons o x ih =>
    intro l h f
    rw [List.foldl_cons, List.foldl_cons, ← ih h.2 f]
    congr 1
    cases o with
    | seen a g p => simp only [after, upd_apply, eq_comm]
    | picked a g => simp only [after, upd_apply, eq_comm]
    | queued a g => have hq := h.1.2; cases hq
    | _ => rfl

/-- A change of a property of a ready fiber is reported at once, to the algorithm in which the fiber is ready; of one that is not, it is
not reported. Not covered: as in `C55_conforms_partial`. -/
theorem C55_reported_iff_ready_partial {s : State} {x y : List Obs} {f : Fid} (h : Reach step (init true) s (x ++ .changed f :: y)) :
    match readyIn f x with
    | some a => ∃ p, (Obs.born f p ∈ x ∨ Obs.given f p ∈ x) ∧ y.head? = some (.reported a f p)
    | none => ∀ a g p, y.head? ≠ some (.reported a g p) := by
  obtain ⟨h1, h2⟩ := C55_conforms_partial h
  obtain ⟨hx, h3, h4⟩ := Runs.append.1 h1
  have hr : readyIn f x = (replay x).inn f := readyIn_eq hx f
  have hseen : ∀ a, (replay x).inn f = some a → ∃ p, (replay x).own f = some p := by
    have : ∀ {x : List Obs} {l : Spec}, Runs true l x → (∀ f a, l.inn f = some a → ∃ p, l.own f = some p) →
        ∀ f a, (x.foldl after l).inn f = some a → ∃ p, (x.foldl after l).own f = some p := by
      intro x
      induction x with
      | nil => intro l _ h; exact h
      | cons o x ih =>
        intro l h hi
        refine ih h.2 ?_
        have ho := h.1
        intro g a hg
        cases o with
        | born f0 p0 => 
          simp only [after, upd_apply] at hg ⊢
          split
          · exact ⟨_, rfl⟩
          · exact hi g a hg
        | given f0 p0 =>
          simp only [after, upd_apply] at hg ⊢
          split
          · exact ⟨_, rfl⟩
          · exact hi g a hg
        | seen a0 f0 p0 =>
          simp only [after, upd_apply] at hg ⊢
          split at hg
          · rename_i e; subst e; exact ⟨_, ho.1⟩
          · exact hi g a hg
        | picked a0 f0 =>
          simp only [after, upd_apply] at hg ⊢
          split at hg
          · cases hg
          · exact hi g a hg
        | queued a0 f0 => have hq := ho.2; cases hq
        | _ => exact hi g a hg
    exact fun a => this hx (by simp [Spec.init]) f a
  rw [hr]
  cases hin : (replay x).inn f with
  | none =>
    dsimp only
    have hd : (after (replay x) (.changed f)).due = none := by simp [after, hin]
    intro a g p hy
    cases y with
    | nil => cases hy
    | cons o y =>
      cases hy
      have h5 := h4.1.2.2 rfl
      have h6 := hd.symm.trans h5
      cases h6
  | some a =>
    obtain ⟨p, hp⟩ := hseen a hin
    dsimp only
    have hd : (after (replay x) (.changed f)).due = some (a, f, p) := by simp [after, hin, hp]
    refine ⟨p, (own_source hp).resolve_left (by simp [Spec.init]), ?_⟩
    cases y with
    | nil =>
      have h6 : (after (replay x) (.changed f)).due = none := by
        have h7 := h2
        simp only [replay, List.foldl_append, List.foldl_cons, List.foldl_nil] at h7
        exact h7
      rw [hd] at h6; cases h6
    | cons o y =>
      have h5 := h4.1
      have bad : ∀ {P : Prop}, (after (replay x) (.changed f)).due = none → P := fun h => by rw [hd] at h; cases h
      cases o with
      | born => exact bad (h5.2.2 rfl)
      | given => exact bad (h5.2.2 rfl)
      | seen => exact bad (h5.2.2.2 rfl)
      | queued => have hq := h5.2; cases hq
      | picked => exact bad (h5.2 rfl)
      | freed => exact bad (h5.2.2.2 rfl)
      | changed => exact bad (h5 rfl)
      | failed => cases h5
      | ub => cases h5
      | reported a' f' p' =>
        have h6 := hd.symm.trans (h5.2.2 rfl)
        cases h6
        rfl

theorem C55_no_failure_partial {s : State} {tr : List Obs} (h : Reach step (init true) s tr) (f : Fid) : Obs.failed f ∉ tr ∧ Obs.ub f ∉ tr := by
  have key : ∀ {tr : List Obs} {l : Spec}, Runs true l tr → Obs.failed f ∉ tr ∧ Obs.ub f ∉ tr := by
    intro tr
    induction tr with
    | nil => intro l _; simp
    | cons o tr ih =>
      intro l h
      obtain ⟨i1, i2⟩ := ih h.2
      constructor
      · intro hm
        rcases List.mem_cons.1 hm with rfl | hm
        · cases h.1
        · exact i1 hm
      · intro hm
        rcases List.mem_cons.1 hm with rfl | hm
        · cases h.1
        · exact i2 hm
  exact key (C55_conforms_partial h).1

/-- Non-vacuity: two threads; fiber 0 is ready in thread 0 when its property changes, then runs (a change is not reported), is woken in thread 1,
which is given another algorithm, and its property changes again. -/
example : ∃ s, Reach step (init true) s [.given 0 0, .seen 0 0 0, .changed 0, .reported 0 0 0, .picked 0 0, .changed 0, .seen 1 0 0, .picked 1 0, .seen 2 0 0,
    .changed 0, .reported 2 0 0, .picked 2 0, .freed 0 0] :=
  ⟨_, reach_of_exec (es := [.setAlgo 0 (.typed 0), .setAlgo 1 (.typed 0), .create 0 0 none true, .change 0, .pick 0 0, .change 0, .wake 1 0,
    .setAlgo 1 (.typed 0), .change 0, .pick 1 0, .destroy 0]) rfl⟩

/-- A fiber created with properties and entered at once; a property is changed before the fiber has ever been ready: the assertion in
`notify` fails (in a release build: a null pointer stays unused as long as the fiber is not ready). -/
theorem C55_dispatched_change_fails : ∃ s, Reach step (init false) s [.born 0 0, .changed 0, .failed 0] :=
  ⟨_, reach_of_exec (es := [.setAlgo 0 (.typed 0), .create 0 0 (some 0) false, .change 0]) rfl⟩

/-- The thread is given an algorithm without properties while the fiber is ready; the change is delivered to the algorithm that was destroyed. -/
theorem C55_change_to_destroyed_algorithm : ∃ s, Reach step (init false) s [.given 0 0, .seen 0 0 0, .picked 0 0, .queued 1 0, .changed 0, .ub 0] :=
  ⟨_, reach_of_exec (es := [.setAlgo 0 (.typed 0), .create 0 0 none true, .setAlgo 0 .plain, .change 0]) rfl⟩

/-- The fiber, ready in a thread whose algorithm has no properties, is reported to the algorithm of another thread, in which it was ready before. -/
theorem C55_reported_to_wrong_algorithm : ∃ s, Reach step (init false) s [.given 0 0, .seen 0 0 0, .picked 0 0, .queued 1 0, .changed 0, .reported 0 0 0] :=
  ⟨_, reach_of_exec (es := [.setAlgo 0 (.typed 0), .setAlgo 1 .plain, .create 0 0 none true, .pick 0 0, .wake 1 0, .change 0]) rfl⟩

/-- The thread is given an algorithm with another properties class: the properties the fiber has are cast to that class. -/
theorem C55_wrong_class : ∃ s, Reach step (init false) s [.given 0 0, .seen 0 0 0, .picked 0 0, .ub 0] :=
  ⟨_, reach_of_exec (es := [.setAlgo 0 (.typed 0), .create 0 0 none true, .setAlgo 0 (.typed 1)]) rfl⟩

/-- The full property does not hold. -/
theorem C55_false : ¬ ∀ s tr, Reach step (init false) s tr → Runs true .init tr := by
  intro h
  obtain ⟨s, hr⟩ := C55_change_to_destroyed_algorithm
  have := h s _ hr
  simp only [Runs, ok, after] at this
  exact absurd this.2.2.2.1.2 (by simp)

/-! ## C72 -/

/-- A fiber entered at once that has not been ready since: `fiber::properties` finds no properties, though the algorithm of its thread
provides them. -/
theorem C72_false : ∃ s s' tr, Reach step (init false) s tr ∧ s.life 0 = .alive ∧ s.cur 0 = some 0 ∧ s.alg 0 = some (.typed 0) ∧
    step s (.change 0) = some (s', [.changed 0, .failed 0]) :=
  ⟨_, _, _, reach_of_exec (es := [.setAlgo 0 (.typed 0), .create 0 0 none false]) rfl, rfl, rfl, rfl, rfl⟩

/-- Once an algorithm with properties has seen the fiber, or if it was created with properties, they can be used as long as the fiber exists: they are
the object seen last. Not covered: fibers entered at once and never ready since. -/
theorem C72_partial {b : Bool} {s : State} {tr : List Obs} (h : Reach step (init b) s tr) (hb : s.broken = false) {f : Fid} (hf : s.life f = .alive)
    {o : Obs} (ho : o ∈ tr) {p : Pid} (hm : o.mentions = some (f, p)) : s.props f = some p ∧ ∃ x, s.obj p = some x ∧ x.ctx = f := by
  obtain ⟨h1, h2, _, _⟩ := reach_good h
  have hc := h2 hb
  have : s.props f = some p := (hc.own f (hc.ngone hf)).symm.trans (h1.mention_own o ho f p hm)
  exact ⟨this, hc.ob f p this⟩

example : ∃ s tr, Reach step (init false) s tr ∧ s.broken = false ∧ s.life 0 = .alive ∧ Obs.seen 0 0 0 ∈ tr :=
  ⟨_, _, reach_of_exec (es := [.setAlgo 0 (.typed 0), .create 0 0 none true]) rfl, rfl, rfl, by decide⟩

end Verif.Prop
