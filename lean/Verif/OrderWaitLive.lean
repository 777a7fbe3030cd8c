import Verif.OrderWaitInv
import Verif.LockOrderLive

/-!
# Fibers that wait in an order: no deadlock, and all come to their end
-/

namespace Verif.OrderWait

section
variable {c : Config} {P : Plan}

theorem inv_run (hF : Follows c P) {H : Fid → List Rsc} {s : State} (I : Inv c P H s) {f : Fid} (hf : f < c.n) (hr : s.st f = .ready) (x : Nat) :
    ∃ H', Inv c P H' (runs c s f x (s.code f)) := by
  have ho := I.ord f hf
  have hh := I.half f hf
  cases hc : s.code f with
  | done => exact ⟨H, inv_end I hf hr hc⟩
  | lock m k =>
    rw [hc] at ho hh
    obtain ⟨htm, ho1, ho2⟩ := ho
    have hp : Plain k := by simpa [Half, Plain] using hh
    simp only [runs]
    split
    · rename_i how
      have hm := (I.own f m).2 how
      have hrec : c.recursive m = true := by
        rcases ho1 with h | h
        · exact absurd (h.2 _ hm) (by omega)
        · exact h.1
      rw [if_pos hrec]
      exact ⟨_, inv_again I hf hr how hrec ho2 hp (by simp [hc]) (by simp [hc, target, eq_comm])⟩
    · split
      · rename_i hn
        exact ⟨_, inv_own I hf hr hn ho2 hp (by simp [hc]) (by simp [hc, target, eq_comm])⟩
      · rename_i h1 h2
        refine ⟨_, inv_suspend I hf hr (r := .mtx m) (by simp [hc, target]) ?_ (by simp) (by simp)⟩
        intro m' h; cases h; exact ⟨fun _ => h1, h2⟩
  | tryLock m k =>
    rw [hc] at ho hh
    obtain ⟨ho1, ho2, ho3⟩ := ho
    have hp : ∀ b, Plain (k b) := by simpa [Half, Plain] using hh
    simp only [runs]
    split
    · rename_i how
      have hrec := ho1 ((I.own f m).2 how)
      rw [if_pos hrec]
      exact ⟨_, inv_again I hf hr how hrec ho2 (hp _) (by simp [hc]) (by simp [hc, target])⟩
    · split
      · rename_i hn
        exact ⟨_, inv_own I hf hr hn ho2 (hp _) (by simp [hc]) (by simp [hc, target])⟩
      · exact ⟨_, inv_on I hf hr ho3 (hp _) (by simp [hc]) (by simp [hc, target])⟩
  | tryLockUntil m k =>
    rw [hc] at ho hh
    obtain ⟨htm, ho2, ho3⟩ := ho
    have hp : ∀ b, Plain (k b) := by simpa [Half, Plain] using hh
    simp only [runs]
    split
    · exact ⟨_, inv_on I hf hr ho3 (hp _) (by simp [hc]) (by simp [hc, target, htm])⟩
    · split
      · rename_i how
        exact ⟨_, inv_again I hf hr how.1 how.2 ho2 (hp _) (by simp [hc]) (by simp [hc, target, eq_comm])⟩
      · split
        · rename_i hn
          exact ⟨_, inv_own I hf hr hn ho2 (hp _) (by simp [hc]) (by simp [hc, target, eq_comm])⟩
        · rename_i h1 h2
          refine ⟨_, inv_suspend I hf hr (r := .mtx m) (by simp [hc, target]) ?_ (by simp) (by simp)⟩
          intro m' h; cases h; exact ⟨fun h => by simp [htm] at h, h2⟩
  | unlock m k =>
    rw [hc] at ho hh
    obtain ⟨ho1, ho2⟩ := ho
    have hp : Plain k := by simpa [Half, Plain] using hh
    have how := (I.own f m).1 ho1
    simp only [runs]
    rw [if_neg (by simp [how])]
    split
    · rename_i h
      exact ⟨_, inv_less I hf hr how h.1 h.2 ho2 hp (by simp [hc]) (by simp [hc, target])⟩
    · rename_i h
      have h1 : s.count m = 1 := by
        have h2 := I.cnt f m how
        have h3 := I.non f m
        have h4 := List.count_pos_iff.2 ho1
        cases hrec : c.recursive m with
        | true => simpa [hrec] using h
        | false => have := h3 hrec; omega
      cases hq : s.queue (.mtx m) with
      | nil =>
        have := inv_release I hf hr how h1 hq ho2 hp (by simp [hc]) (by simp [hc, target])
        exact ⟨_, by simpa [notifyOne, setCode, hq] using this⟩
      | cons g q =>
        have := inv_hand I hf hr how h1 hq ho2 hp (by simp [hc]) (by simp [hc, target])
        exact ⟨_, by simpa [notifyOne, setCode, hq] using this⟩
  | set p v k =>
    rw [hc] at ho hh
    obtain ⟨ho1, ho2⟩ := ho
    have hp : Plain k := by simpa [Half, Plain] using hh
    have hn : s.val p = none := by
      cases hv : s.val p with
      | none => rfl
      | some w =>
        obtain ⟨k', h⟩ := I.toSet f p ho1 (by simp [hv])
        rw [hc] at h; cases h
    simp only [runs, hn, Option.isSome_none, Bool.false_eq_true, if_false]
    exact ⟨_, inv_set I hf hr hn ho1 ⟨ho1, ho2⟩ hp (by simp [hc]) (by simp [hc, target]) hF.one⟩
  | notify p k =>
    rw [hc] at ho hh
    obtain ⟨ho1, ho2⟩ := ho
    have hp : Plain k ∧ s.val p ≠ none := by
      rcases hh with h | ⟨p', k', h, h2, h3⟩
      · simp [Plain] at h
      · cases h; exact ⟨h2, h3⟩
    exact ⟨_, inv_notify I hf hr hp.2 ho1 ho2 hp.1 hc hF.one⟩
  | get p k =>
    rw [hc] at ho hh
    obtain ⟨ho1, ho2, ho3⟩ := ho
    have hp : ∀ v, Plain (k v) := by simpa [Half, Plain] using hh
    simp only [runs]
    split
    · exact ⟨_, inv_on I hf hr (ho3 _) (hp _) (by simp [hc]) (by simp [hc, target])⟩
    · rename_i hv
      refine ⟨_, inv_suspend I hf hr (r := .fut p) (by simp [hc, target]) (by simp) ?_ (by simp)⟩
      intro p' h; cases h; exact hv
  | launch g k =>
    rw [hc] at ho hh
    obtain ⟨ho1, ho2⟩ := ho
    have hp : Plain k := by simpa [Half, Plain] using hh
    have hg := I.toBear f g ho1
    simp only [runs, hg, if_true]
    exact ⟨_, inv_launch I hf hr hg ho1 ho2 hp (by simp [hc]) (by simp [hc, target]) hF.one⟩
  | join g k =>
    rw [hc] at ho hh
    obtain ⟨ho1, ho2, ho3⟩ := ho
    have hp : Plain k := by simpa [Half, Plain] using hh
    have hg : g ≠ f := by rintro rfl; exact absurd ho1.1 (by omega)
    simp only [runs, hg, if_false]
    split
    · exact ⟨_, inv_on I hf hr ho3 hp (by simp [hc]) (by simp [hc, target])⟩
    · rename_i he
      refine ⟨_, inv_suspend I hf hr (r := .fib g) (by simp [hc, target]) (by simp) (by simp) ?_⟩
      intro p' h; cases h; exact ⟨he, hg⟩
  | choose k =>
    rw [hc] at ho hh
    have hp : ∀ v, Plain (k v) := by simpa [Half, Plain] using hh
    exact ⟨_, inv_on I hf hr (ho _) (hp _) (by simp [hc]) (by simp [hc, target])⟩

/-- What the time of fiber `f` being over does. -/
def gives (s : State) (f : Fid) (m : Nat) (k : Bool → Prog) : State :=
  setCode { s with st := put s.st f .ready, queue := put s.queue (.mtx m) ((s.queue (.mtx m)).filter (· ≠ f)) } f (k false)

theorem step_cases {H : Fid → List Rsc} {s s' : State} (I : Inv c P H s) {e : Event} {o : List Unit} (he : step c s e = some (s', o)) :
    ∃ f, f < c.n ∧ ((∃ x, s.st f = .ready ∧ s' = runs c s f x (s.code f)) ∨ ∃ m k, s.st f = .waits ∧ s.code f = .tryLockUntil m k ∧ s' = gives s f m k) := by
  cases e with
  | run f x =>
    simp only [step] at he
    split at he
    · rename_i h; cases he; exact ⟨f, h.1, .inl ⟨x, h.2, rfl⟩⟩
    · cases he
  | timeout f =>
    simp only [step] at he
    split at he
    · rename_i hw
      by_cases hf : f < c.n
      · split at he
        · rename_i h; cases he; exact ⟨f, hf, .inr ⟨_, _, hw, h, rfl⟩⟩
        · cases he
      · exact absurd hw (I.far f hf)
    · cases he

theorem inv_step (hF : Follows c P) {H : Fid → List Rsc} {s s' : State} (I : Inv c P H s) {e : Event} {o : List Unit} (he : step c s e = some (s', o)) : ∃ H', Inv c P H' s' := by
  obtain ⟨f, hf, ⟨x, hr, rfl⟩ | ⟨m, k, hw, hc, rfl⟩⟩ := step_cases I he
  · exact inv_run hF I hf hr x
  · have ho := I.ord f hf
    have hh := I.half f hf
    rw [hc] at ho hh
    exact ⟨H, inv_timeout I hf hw hc ho.1 ho.2.2 (by simp [Half, Plain] at hh; exact hh.1)⟩

theorem inv_reach (hF : Follows c P) {s : State} {tr : List Unit} (h : Reach (step c) (init c) s tr) : ∃ H, Inv c P H s := by
  induction h with
  | refl => exact ⟨_, inv_init hF⟩
  | tail e _ he ih =>
    obtain ⟨H, I⟩ := ih
    exact inv_step hF I he

/-! ## No deadlock -/

/-- A fiber that is suspended waits for something below all that it has. -/
theorem waits_below {H : Fid → List Rsc} {s : State} (I : Inv c P H s) {f : Fid} (hf : f < c.n) (hw : s.st f = .waits) (hu : ∀ m k, s.code f ≠ .tryLockUntil m k) :
    ∃ r, target (s.code f) = some r ∧ Below P f (H f) r := by
  obtain ⟨r, hr⟩ := I.aims f hf hw
  refine ⟨r, hr, ?_⟩
  have ho := I.ord f hf
  cases hc : s.code f <;> rw [hc] at hr ho <;> simp only [target, Option.some.injEq, reduceCtorEq] at hr <;> subst hr <;> simp only [Ordered] at ho
  case lock m k =>
    rcases ho.2.1 with h | h
    · exact h
    · exact absurd ((I.own f m).1 h.2) (I.other f m ho.1 hf hw (by simp [hc, target]))
  case tryLockUntil m k => exact absurd hc (hu m k)
  case get => exact ho.1
  case join => exact ho.1

theorem held_nil {H : Fid → List Rsc} {s : State} (I : Inv c P H s) {f : Fid} (hf : f < c.n) (hw : s.st f = .ended) : H f = [] := by
  have := I.ord f hf
  rw [I.fin f hf hw] at this
  exact this

/-- If no fiber can run, then, if a fiber has not been launched, another one waits for something below it. -/
theorem parent_waits (hF : Follows c P) {H : Fid → List Rsc} {s : State} (I : Inv c P H s) (hno : ∀ f, f < c.n → s.st f ≠ .ready) (hnt : ∀ f, f < c.n → s.st f = .waits → ∀ m k, s.code f ≠ .tryLockUntil m k) (g : Nat) :
    g < c.n → s.st g = .unborn → ∃ f r, f < c.n ∧ s.st f = .waits ∧ target (s.code f) = some r ∧ P.rank r < P.rank (.start g) := by
  induction g using Nat.strongRecOn with
  | ind g ih =>
    intro hg hu
    have h0 : 0 < g := by
      rcases Nat.eq_zero_or_pos g with rfl | h
      · exact absurd hu I.born0
      · exact h
    obtain ⟨h, hd⟩ := hF.born g h0 hg
    have hlt : h < g := by
      rcases hF.kinds h _ hd with ⟨p, hp⟩ | ⟨g', hp, h1, _⟩
      · cases hp
      · cases hp; exact h1
    have hn : h < c.n := by simp only [Fid] at *; omega
    have hm : .start g ∈ H h := by
      have := I.isBorn h g hn hd
      grind
    cases hs : s.st h with
    | ready => exact absurd hs (hno h hn)
    | ended => rw [held_nil I hn hs] at hm; cases hm
    | waits =>
      obtain ⟨r, h1, h2⟩ := waits_below I hn hs (hnt h hn hs)
      exact ⟨h, r, hn, hs, h1, h2.2 _ hm⟩
    | unborn =>
      obtain ⟨f, r, h1, h2, h3, h4⟩ := ih h hlt hn hs
      exact ⟨f, r, h1, h2, h3, Nat.lt_of_lt_of_le h4 (hF.first h _ hn hd)⟩

theorem no_wait (hF : Follows c P) {H : Fid → List Rsc} {s : State} (I : Inv c P H s) (hno : ∀ f, f < c.n → s.st f ≠ .ready) (hnt : ∀ f, f < c.n → s.st f = .waits → ∀ m k, s.code f ≠ .tryLockUntil m k) (n : Nat) :
    ∀ f r, f < c.n → s.st f = .waits → target (s.code f) = some r → P.rank r = n → False := by
  induction n using Nat.strongRecOn with
  | ind n ih =>
    intro f r hf hw ht hn
    have hq := (I.inq f r).2 ⟨hf, hw, ht⟩
    -- whoever has `r` waits for something below
    have key : ∀ h, h < c.n → r ∈ H h → (∀ m, r = .mtx m → s.st h ≠ .unborn) → False := by
      intro h hh hm hu
      cases hs : s.st h with
      | ready => exact hno h hh hs
      | ended => rw [held_nil I hh hs] at hm; cases hm
      | waits =>
        obtain ⟨r', h1, h2⟩ := waits_below I hh hs (hnt h hh hs)
        exact ih _ (by rw [← hn]; exact h2.2 _ hm) h r' hh hs h1 rfl
      | unborn =>
        obtain ⟨f', r', h1, h2, h3, h4⟩ := parent_waits hF I hno hnt h hh hs
        have hd := I.duty h r hm (fun m hm => hu m hm hs)
        exact ih _ (by have := hF.first h r hh hd; omega) f' r' h1 h2 h3 rfl
    cases r with
    | mtx m =>
      cases ho : s.owner m with
      | none =>
        have htm : P.timed m = false := by
          have hO := I.ord f hf
          have hc' := hnt f hf hw
          cases hc : s.code f <;> rw [hc] at ht hO <;> simp only [target, Option.some.injEq, reduceCtorEq, Rsc.mtx.injEq] at ht <;> subst ht
          · exact hO.1
          · exact absurd hc (hc' _ _)
        obtain ⟨g, h1, h2, _⟩ := I.free m htm ho (by intro h; rw [h] at hq; cases hq)
        exact hno g h1 h2
      | some h =>
        have hm := (I.own h m).2 ho
        have hh : h < c.n := by
          by_cases hh : h < c.n
          · exact hh
          · rw [I.out h hh] at hm; cases hm
        refine key h hh hm fun m' _ hu => ?_
        rw [I.unb h hh hu] at hm
        rcases hF.kinds h _ hm with ⟨p, hp⟩ | ⟨g', hp, h1, _⟩ <;> cases hp
    | fut p =>
      have ho := I.ord f hf
      cases hc : s.code f <;> rw [hc] at ht ho <;> simp only [target, Option.some.injEq, reduceCtorEq, Rsc.fut.injEq] at ht
      subst ht; rename_i p k
      obtain ⟨_, ⟨g, hg, hd⟩, _⟩ := ho
      have hm : .fut p ∈ H g := by
        have := I.isSet g p hg hd
        grind
      exact key g hg hm (by simp)
    | fib g =>
      have ho := I.ord f hf
      cases hc : s.code f <;> rw [hc] at ht ho <;> simp only [target, Option.some.injEq, reduceCtorEq, Rsc.fib.injEq] at ht
      subst ht; rename_i g k
      obtain ⟨_, hg, _⟩ := ho
      cases hs : s.st g with
      | ready => exact hno g hg hs
      | ended => exact I.open_ g (by intro h; rw [h] at hq; cases hq) hs
      | waits =>
        obtain ⟨r', h1, h2⟩ := waits_below I hg hs (hnt g hg hs)
        exact ih _ (by rw [← hn]; exact h2.1) g r' hg hs h1 rfl
      | unborn =>
        obtain ⟨f', r', h1, h2, h3, h4⟩ := parent_waits hF I hno hnt g hg hs
        exact ih _ (by have := hF.before g hg; omega) f' r' h1 h2 h3 rfl
    | start g => cases hc : s.code f <;> rw [hc] at ht <;> simp [target] at ht

theorem all_ended (hF : Follows c P) {H : Fid → List Rsc} {s : State} (I : Inv c P H s) (hno : ∀ f, f < c.n → s.st f ≠ .ready) (hnt : ∀ f, f < c.n → s.st f = .waits → ∀ m k, s.code f ≠ .tryLockUntil m k) : ∀ f, f < c.n → s.st f = .ended := by
  intro f hf
  cases hs : s.st f with
  | ready => exact absurd hs (hno f hf)
  | ended => rfl
  | waits =>
    obtain ⟨r, h1, _⟩ := waits_below I hf hs (hnt f hf hs)
    exact (no_wait hF I hno hnt _ f r hf hs h1 rfl).elim
  | unborn =>
    obtain ⟨f', r', h1, h2, h3, _⟩ := parent_waits hF I hno hnt f hf hs
    exact (no_wait hF I hno hnt _ f' r' h1 h2 h3 rfl).elim

/-! ## All come to their end -/

/-- What is left of a program after a step. -/
inductive Sub : Prog → Prog → Prop
  | lock m k : Sub k (.lock m k)
  | tryLock m k b : Sub (k b) (.tryLock m k)
  | tryLockUntil m k b : Sub (k b) (.tryLockUntil m k)
  | unlock m k : Sub k (.unlock m k)
  | set p v k : Sub (.notify p k) (.set p v k)
  | notify p k : Sub k (.notify p k)
  | get p k v : Sub (k v) (.get p k)
  | launch g k : Sub k (.launch g k)
  | join g k : Sub k (.join g k)
  | choose k x : Sub (k x) (.choose k)

theorem sub_wf : WellFounded Sub := by
  refine ⟨fun c => ?_⟩
  induction c with
  | done => exact ⟨_, fun _ h => nomatch h⟩
  | set p v k ih => exact ⟨_, fun _ h => by cases h; exact ⟨_, fun _ h => by cases h; exact ih⟩⟩
  | lock m k ih => exact ⟨_, fun _ h => by cases h; exact ih⟩
  | unlock m k ih => exact ⟨_, fun _ h => by cases h; exact ih⟩
  | notify m k ih => exact ⟨_, fun _ h => by cases h; exact ih⟩
  | launch m k ih => exact ⟨_, fun _ h => by cases h; exact ih⟩
  | join m k ih => exact ⟨_, fun _ h => by cases h; exact ih⟩
  | tryLock m k ih => exact ⟨_, fun _ h => by cases h; exact ih _⟩
  | tryLockUntil m k ih => exact ⟨_, fun _ h => by cases h; exact ih _⟩
  | get m k ih => exact ⟨_, fun _ h => by cases h; exact ih _⟩
  | choose k ih => exact ⟨_, fun _ h => by cases h; exact ih _⟩

/-- How many fibers have not ended, and how many can run. -/
def counts (c : Config) (s : State) : Nat × Nat :=
  ((List.range c.n).countP (fun f => s.st f ≠ .ended), (List.range c.n).countP (fun f => s.st f = .ready))

abbrev Less (c : Config) : (Nat → Prog) × (Nat × Nat) → (Nat → Prog) × (Nat × Nat) → Prop :=
  Prod.Lex (LockOrder.One Sub c.n) (Prod.Lex (· < ·) (· < ·))

theorem less_wf (c : Config) : WellFounded (Less c) :=
  (Prod.lex ⟨_, ⟨LockOrder.one_acc sub_wf c.n⟩⟩ (Prod.lex ⟨_, Nat.lt_wfRel.wf⟩ ⟨_, Nat.lt_wfRel.wf⟩)).wf

theorem countP_lt {n f : Nat} {p q : Nat → Bool} (hf : f < n) (h : ∀ g, p g = true → q g = true) (h1 : p f = false) (h2 : q f = true) :
    (List.range n).countP p < (List.range n).countP q := by
  induction n with
  | zero => omega
  | succ n ih =>
    rw [List.range_succ, List.countP_append, List.countP_append]
    have hle : ∀ m, (List.range m).countP p ≤ (List.range m).countP q := fun m => List.countP_mono_left fun x _ => h x
    by_cases hfn : f = n
    · subst hfn
      have := hle f
      simp only [List.countP_singleton, h1, h2]
      simp <;> omega
    · have := ih (by omega)
      have h3 := h n
      simp only [List.countP_singleton]
      by_cases hp : p n = true <;> simp [hp] at * <;> grind

theorem gives_less {s : State} {f : Fid} (hf : f < c.n) {m : Nat} {k : Bool → Prog} (hc : s.code f = .tryLockUntil m k) :
    Less c ((gives s f m k).code, counts c (gives s f m k)) (s.code, counts c s) := by
  refine .left _ _ ⟨f, hf, ?_, fun g hg => by simp [gives, setCode, put, hg]⟩
  simp only [gives, setCode, put, if_true, hc]
  exact .tryLockUntil _ _ _

theorem run_less {H : Fid → List Rsc} {s : State} (I : Inv c P H s) {f : Fid} (hf : f < c.n) (hr : s.st f = .ready) (x : Nat) :
    Less c ((runs c s f x (s.code f)).code, counts c (runs c s f x (s.code f))) (s.code, counts c s) := by
  have goes : ∀ s' : State, Sub (s'.code f) (s.code f) → (∀ g, g ≠ f → s'.code g = s.code g) → Less c (s'.code, counts c s') (s.code, counts c s) :=
    fun s' h1 h2 => .left _ _ ⟨f, hf, h1, h2⟩
  have stays : ∀ r, Less c ((suspend s f r).code, counts c (suspend s f r)) (s.code, counts c s) := by
    intro r
    have h1 : (counts c (suspend s f r)).1 = (counts c s).1 := by
      simp only [counts, suspend, put]
      congr 1; funext g; by_cases hg : g = f
      · subst hg; simp [hr]
      · simp [hg]
    have h2 : (counts c (suspend s f r)).2 < (counts c s).2 := by
      simp only [counts, suspend, put]
      refine countP_lt hf ?_ (by simp) (by simp [hr])
      intro g; by_cases hg : g = f <;> simp [hg]
    refine .right _ ?_
    rw [← Prod.eta (counts c (suspend s f r)), ← Prod.eta (counts c s), h1]
    exact .right _ h2
  have throwing : Less c ((throws s f).code, counts c (throws s f)) (s.code, counts c s) := by
    refine .right _ (.left _ _ ?_)
    simp only [throws, put]
    refine countP_lt hf ?_ (by simp) (by simp [hr])
    intro g; by_cases hg : g = f <;> simp [hg]
  have on : ∀ (s' : State) k, Sub k (s.code f) → s'.code = s.code → Less c ((setCode s' f k).code, counts c (setCode s' f k)) (s.code, counts c s) := by
    intro s' k h1 h2
    refine goes _ (by simpa [setCode, put] using h1) fun g hg => by simp [setCode, put, hg, h2]
  cases hc : s.code f with
  | done =>
    refine .right _ (.left _ _ ?_)
    simp only [runs, notifyAll, put]
    have hq : ∀ g, g ∈ s.queue (.fib f) → s.st g = .waits := fun g h => ((I.inq g _).1 h).2.1
    refine countP_lt hf ?_ ?_ (by simp [hr])
    · intro g; have := hq g; grind
    · have := hq f; grind
  | lock m k =>
    have := Sub.lock m k
    rw [← hc] at this
    simp only [runs]
    repeat' split
    · exact on _ _ this rfl
    · exact throwing
    · exact on _ _ this rfl
    · exact stays _
  | tryLock m k =>
    have := Sub.tryLock m k
    rw [← hc] at this
    simp only [runs]
    repeat' split
    · exact on _ _ (this _) rfl
    · exact throwing
    · exact on _ _ (this _) rfl
    · exact on _ _ (this _) rfl
  | tryLockUntil m k =>
    have := Sub.tryLockUntil m k
    rw [← hc] at this
    simp only [runs]
    repeat' split
    · exact on _ _ (this _) rfl
    · exact on _ _ (this _) rfl
    · exact on _ _ (this _) rfl
    · exact stays _
  | unlock m k =>
    have := Sub.unlock m k
    rw [← hc] at this
    simp only [runs]
    split
    · exact throwing
    · split
      · exact on _ _ this rfl
      · refine goes _ ?_ fun g hg => ?_
        · simp only [notifyOne]; split <;> simpa [setCode, put] using this
        · simp only [notifyOne]; split <;> simp [setCode, put, hg]
  | set p v k =>
    have := Sub.set p v k
    rw [← hc] at this
    simp only [runs]
    split
    · exact throwing
    · exact on _ _ this rfl
  | notify p k =>
    have := Sub.notify p k
    rw [← hc] at this
    exact goes _ (by simpa [runs, notifyAll, setCode, put] using this) fun g hg => by simp [runs, notifyAll, setCode, put, hg]
  | get p k =>
    have := Sub.get p k
    rw [← hc] at this
    simp only [runs]
    split
    · exact on _ _ (this _) rfl
    · exact stays _
  | launch g k =>
    have := Sub.launch g k
    rw [← hc] at this
    simp only [runs]
    split
    · exact on _ _ this rfl
    · exact throwing
  | join g k =>
    have := Sub.join g k
    rw [← hc] at this
    simp only [runs]
    repeat' split
    · exact throwing
    · exact on _ _ this rfl
    · exact stays _
  | choose k =>
    have := Sub.choose k
    rw [← hc] at this
    exact on _ _ (this _) rfl

theorem step_less {H : Fid → List Rsc} {s s' : State} (I : Inv c P H s) {e : Event} {o : List Unit} (he : step c s e = some (s', o)) :
    Less c (s'.code, counts c s') (s.code, counts c s) := by
  obtain ⟨f, hf, ⟨x, hr, rfl⟩ | ⟨m, k, hw, hc, rfl⟩⟩ := step_cases I he
  · exact run_less I hf hr x
  · exact gives_less hf hc

end

end Verif.OrderWait
