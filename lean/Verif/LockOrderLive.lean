import Verif.LockOrderInv

/-!
# Threads that hold locks can go on
-/

namespace Verif.LockOrder

/-- Thread `t` holds a lock: the fiber it runs, or the code it runs after a switch. -/
def Holds (s : State) (t : Tid) : Prop := ∃ l, s.owner l = some (.post t) ∨ s.owner l = some (.fib (s.cur t))

/-- `e` continues a call (does not begin one). -/
def Event.Continues : Event → Prop
  | .begin .. => False
  | _ => True

theorem agent_of_runs {s : State} {t : Tid} {a : Agent} (h : Runs s t a) : s.agent t = a := by
  rcases h with ⟨h1, h2⟩ | ⟨h1, h2⟩
  · simp [State.agent, h2, Code.isDone, h1]
  · have : (s.code (.post t)).isDone = false := by
      cases hx : s.code (.post t) <;> simp_all [Code.isDone]
    simp [State.agent, this, h1]

/-- Who holds a lock is executed by a thread. -/
theorem holder_runs {n : Nat} {s : State} {held : Agent → List Lk} (hi : Inv n s held) {a : Agent} (h : held a ≠ []) : ∃ t, t < n ∧ Runs s t a := by
  cases a with
  | post t =>
    have hnd : s.code (.post t) ≠ .done := by
      intro hd
      have := hi.ord (.post t)
      rw [hd] at this
      exact h this
    refine ⟨t, ?_, .inr ⟨rfl, hnd⟩⟩
    by_cases ht : t < n
    · exact ht
    · exact absurd (hi.gone t ht) hnd
  | fib f =>
    have : ∃ t, t < n ∧ s.cur t = f := by
      apply Classical.byContradiction
      intro hno
      exact h (hi.rest f fun t ht hf => hno ⟨t, ht, hf⟩)
    obtain ⟨t, ht, rfl⟩ := this
    refine ⟨t, ht, .inl ⟨rfl, ?_⟩⟩
    apply Classical.byContradiction
    intro hnd
    refine h (hi.busy t ht ?_)
    cases hx : s.code (.post t) <;> simp_all [Code.isDone]

theorem holder_steps {n : Nat} {s : State} {held : Agent → List Lk} (hi : Inv n s held) :
    ∀ (r : Nat) (l : Lk) (a : Agent), rank l ≤ r → s.owner l = some a →
      ∃ t e, t < n ∧ Holds s t ∧ e.thread = t ∧ e.Continues ∧ (step n s e).isSome := by
  intro r
  induction r with
  | zero => intro l a hr; cases l <;> simp [rank] at hr
  | succ r ih =>
    intro l a hr ho
    have hl : l ∈ held a := (hi.own l a).1 ho
    obtain ⟨t, ht, hrun⟩ := holder_runs hi (a := a) (by intro h; rw [h] at hl; cases hl)
    have hag := agent_of_runs hrun
    have hholds : Holds s t := by
      refine ⟨l, ?_⟩
      rcases hrun with ⟨h, -⟩ | ⟨h, -⟩
      · exact .inr (h ▸ ho)
      · exact .inl (h ▸ ho)
    have hord := hi.ord a
    cases hc : s.code a with
    | done => rw [hc] at hord; rw [show held a = [] from hord] at hl; cases hl
    | acq m k =>
      rw [hc] at hord
      cases hm : s.owner m with
      | none => exact ⟨t, .go t, ht, hholds, rfl, trivial, by simp [step, Event.thread, ht, hag, hc, hm]⟩
      | some b =>
        have := hord.1 l hl
        exact ih m b (by omega) hm
    | rel m k => exact ⟨t, .go t, ht, hholds, rfl, trivial, by simp [step, Event.thread, ht, hag, hc]⟩
    | tryAcq m y k =>
      refine ⟨t, .go t, ht, hholds, rfl, trivial, ?_⟩
      simp only [step, Event.thread, ht, hag, hc, if_true]
      split <;> rfl
    | branch k => exact ⟨t, .choose t 0, ht, hholds, rfl, trivial, by simp [step, Event.thread, ht, hag, hc]⟩
    | switch r p k =>
      rw [hc] at hord
      have hfib : a = .fib (s.cur t) := by
        rcases hrun with ⟨h, -⟩ | ⟨h, -⟩
        · exact h
        · have := hi.post t; rw [← h, hc] at this; exact this.elim
      refine ⟨t, .switch t (.disp t), ht, hholds, rfl, trivial, ?_⟩
      have hres : mayResume n s t (.disp t) = true := by
        simp only [mayResume, Bool.and_eq_true, List.all_eq_true, List.mem_range, beq_self_eq_true, and_true]
        intro u hu
        simp only [Bool.not_eq_true', beq_eq_false_iff_ne, ne_eq]
        intro hcu
        have hut := hi.place u hu t hcu
        subst hut
        have := hi.disp t
        rw [← hcu, ← hfib, hc] at this
        obtain ⟨rfl, -⟩ := this
        rw [hord.1] at hl
        cases hl
      simp only [step, Event.thread, ht, hag, hc, if_true]
      rw [if_pos ⟨hfib, hres⟩]
      rfl

/-! ### Critical sections end -/

/-- `c` is what is left of `d` after one step. -/
inductive Sub : Code → Code → Prop
  | acq (l k) : Sub k (.acq l k)
  | rel (l k) : Sub k (.rel l k)
  | yes (l y n) : Sub y (.tryAcq l y n)
  | no (l y n) : Sub n (.tryAcq l y n)
  | branch (k i) : Sub (k i) (.branch k)

theorem sub_wf : WellFounded Sub := by
  refine ⟨fun c => ?_⟩
  induction c with
  | done => exact ⟨_, fun _ h => nomatch h⟩
  | acq l k ih => exact ⟨_, fun _ h => by cases h; exact ih⟩
  | rel l k ih => exact ⟨_, fun _ h => by cases h; exact ih⟩
  | tryAcq l y n ih1 ih2 => exact ⟨_, fun _ h => by cases h <;> assumption⟩
  | branch k ih => exact ⟨_, fun _ h => by cases h; exact ih _⟩
  | switch => exact ⟨_, fun _ h => nomatch h⟩

/-- One of the components below `n` gets smaller, the others stay. -/
def One {α : Type} (r : α → α → Prop) (n : Nat) (f g : Nat → α) : Prop :=
  ∃ i, i < n ∧ r (f i) (g i) ∧ ∀ j, j ≠ i → f j = g j

theorem one_acc {α : Type} {r : α → α → Prop} (hr : WellFounded r) (n : Nat) : ∀ g : Nat → α, Acc (One r n) g := by
  induction n with
  | zero => intro g; exact ⟨_, fun _ ⟨i, h, _⟩ => absurd h (by omega)⟩
  | succ n ih =>
    have key : ∀ x : α, ∀ g : Nat → α, g n = x → Acc (One r (n + 1)) g := by
      intro x
      induction hr.apply x with
      | intro x _ ihx =>
        intro g hg
        induction ih g with
        | intro g _ ihg =>
          refine ⟨_, ?_⟩
          rintro f ⟨i, hi, hri, hrest⟩
          by_cases hin : i = n
          · subst hin
            exact ihx (f i) (by rw [← hg]; exact hri) f rfl
          · exact ihg f ⟨i, by omega, hri, hrest⟩ (by rw [hrest n (fun h => hin h.symm), hg])
    intro g
    exact key _ g rfl

/-- A thread that holds a lock takes a step. -/
def HolderStep (n : Nat) (s s' : State) : Prop :=
  ∃ e o, Holds s e.thread ∧ e.Continues ∧ step n s e = some (s', o)

open Classical in
/-- How far thread `t` is from holding no lock. -/
noncomputable def left (n : Nat) (s : State) (t : Tid) : Nat × Code :=
  if ¬ t < n then (0, .done)
  else if s.code (.post t) ≠ .done then (0, s.code (.post t))
  else if Holds s t then (1, s.code (.fib (s.cur t)))
  else (0, .done)

abbrev Less : Nat × Code → Nat × Code → Prop := Prod.Lex (· < ·) Sub

theorem less_wf : WellFounded Less := (Prod.lex ⟨_, Nat.lt_wfRel.wf⟩ ⟨_, sub_wf⟩).wf

theorem left_other {n : Nat} {s s' : State} {u : Tid} (h1 : s'.code (.post u) = s.code (.post u)) (h2 : s'.cur u = s.cur u)
    (h3 : u < n → s'.code (.fib (s.cur u)) = s.code (.fib (s.cur u)))
    (h4 : u < n → ∀ l, s'.owner l = some (.post u) ↔ s.owner l = some (.post u))
    (h5 : u < n → ∀ l, s'.owner l = some (.fib (s.cur u)) ↔ s.owner l = some (.fib (s.cur u))) : left n s' u = left n s u := by
  by_cases hu : u < n
  · have : Holds s' u ↔ Holds s u := by
      simp only [Holds, h2, h4 hu, h5 hu]
    by_cases hp : s.code (.post u) = .done
    · by_cases hh : Holds s u
      · simp [left, hu, h1, hp, hh, this.2 hh, h2, h3 hu]
      · simp [left, hu, h1, hp, hh, mt this.1 hh]
    · simp [left, hu, h1, hp]
  · simp [left, hu]

theorem holder_less {n : Nat} {s s' : State} {held : Agent → List Lk} (hi : Inv n s held) (hs : HolderStep n s s') :
    One Less n (left n s') (left n s) := by
  obtain ⟨e, o, hh, hcont, h⟩ := hs
  obtain ⟨held', hi'⟩ := inv_step hi (by cases e <;> simp_all [Event.Continues, Event.Fine]) h
  simp only [step] at h
  split at h
  case isFalse => cases h
  rename_i ht
  have hr := runs_agent s e.thread
  generalize s.agent e.thread = a at h hr
  generalize htt : e.thread = t at *
  have hord := hi.ord a
  -- what the thread executes, in the measure
  have hleft : left n s t = (if a = .post t then 0 else 1, s.code a) := by
    rcases hr with ⟨h1, h2⟩ | ⟨h1, h2⟩
    · simp [left, ht, h2, hh, h1]
    · simp [left, ht, h2, h1]
  -- a step to a part of the code of the same agent
  have key : ∀ (own : Lk → Option Agent) (k : Code), s' = setCode { s with owner := own } a k → Sub k (s.code a) →
      (∀ l b, b ≠ a → (own l = some b ↔ s.owner l = some b)) → One Less n (left n s') (left n s) := by
    intro own k hs' hsub hown
    refine ⟨t, ht, ?_, ?_⟩
    · rw [hleft]
      rcases hr with ⟨h1, h2⟩ | ⟨h1, h2⟩
      · have hp : s'.code (.post t) = .done := by rw [hs']; simp [setCode, h1, h2]
        have hk : s'.code (.fib (s'.cur t)) = k := by rw [hs']; simp [setCode, h1]
        by_cases hh' : Holds s' t
        · have : left n s' t = (1, k) := by simp [left, ht, hp, hh', hk]
          rw [this, h1]
          exact .right _ (h1 ▸ hsub)
        · have : left n s' t = (0, .done) := by simp [left, ht, hp, hh']
          rw [this, h1]
          exact .left _ _ (by simp)
      · have hp : s'.code (.post t) = k := by rw [hs']; simp [setCode, h1]
        have hnone : held (.fib (s.cur t)) = [] := hi.busy t ht (by cases hx : s.code (.post t) <;> simp_all [Code.isDone])
        have : left n s' t = (0, k) := by
          by_cases hkd : k = .done
          · subst hkd
            have hno : ¬ Holds s' t := by
              rintro ⟨l, hl | hl⟩
              · have h1 := (hi'.own l _).1 hl
                have h2 := hi'.ord (.post t)
                rw [hp] at h2
                rw [show held' (.post t) = [] from h2] at h1
                cases h1
              · have hcc : s'.cur t = s.cur t := by rw [hs']; rfl
                rw [hcc, show s'.owner = own by rw [hs']; rfl, hown l _ (by rw [h1]; simp)] at hl
                have := (hi.own l _).1 hl
                rw [hnone] at this
                cases this
            simp [left, ht, hp, hno]
          · simp [left, ht, hp, hkd]
        rw [this, h1]
        simp only [if_true]
        exact .right _ (h1 ▸ hsub)
    · intro u hut
      have hap : Agent.post u ≠ a := by
        rcases hr with ⟨h1, -⟩ | ⟨h1, -⟩ <;> rw [h1] <;> simp [hut]
      have haf : u < n → Agent.fib (s.cur u) ≠ a := by
        intro hu
        rcases hr with ⟨h1, -⟩ | ⟨h1, -⟩ <;> rw [h1] <;> simp
        exact fun h => hut (hi.inj u t hu ht h)
      subst hs'
      refine left_other ?_ rfl ?_ ?_ ?_
      · simp [setCode, hap]
      · intro hu; simp [setCode, haf hu]
      · intro hu l; exact hown l _ hap
      · intro hu l; exact hown l _ (haf hu)
  split at h
  · exact hcont.elim
  · rename_i l k hc
    rw [hc] at hord key
    split at h <;> cases h
    rename_i hfree
    exact key (fun m => if m = l then some a else s.owner m) k rfl (.acq ..) (by intro m b hb; grind)
  · rename_i l k hc
    rw [hc] at hord key
    cases h
    have := (hi.own l a).2 hord.1
    exact key (fun m => if m = l then none else s.owner m) k rfl (.rel ..) (by intro m b hb; grind)
  · rename_i l y k hc
    rw [hc] at hord key
    split at h <;> cases h
    · exact key (fun m => if m = l then some a else s.owner m) y rfl (.yes ..) (by intro m b hb; grind)
    · exact key s.owner k rfl (.no ..) (by intro m b hb; rfl)
  · rename_i i k hc
    rw [hc] at hord key
    cases h
    exact key s.owner _ rfl (.branch ..) (by intro m b hb; rfl)
  · rename_i v g r p k hc
    rw [hc] at hord
    split at h <;> cases h
    rename_i hg
    obtain rfl : v = t := htt
    obtain ⟨ha, hg⟩ := hg
    simp only [mayResume, Bool.and_eq_true, List.all_eq_true, List.mem_range] at hg
    have hg1 : ∀ u, u < n → s.cur u ≠ g := fun u hu h => by have := hg.1 u hu; simp [h] at this
    have hgf : held (.fib g) = [] := hi.rest g hg1
    have hpd : s.code (.post v) = .done := by
      rcases hr with hr | hr
      · exact hr.2
      · rw [hr.1] at ha; cases ha
    have hp0 : held (.post v) = [] := by have := hi.ord (.post v); rw [hpd] at this; exact this
    have hown : ∀ m, r = some m → s.owner m = some a := by
      intro m hm
      refine (hi.own m a).2 ?_
      rw [hord.1, hm]
      simp
    generalize hs' : setCur _ v g = s' at *
    have hcode : ∀ b, s'.code b = if b = .post v then p else if b = a then k else s.code b := by
      intro b; subst hs'; cases r <;> simp [setCur, setCode, setOwner]
    have hcur' : ∀ u, s'.cur u = if u = v then g else s.cur u := by
      intro u; subst hs'; cases r <;> simp [setCur, setCode, setOwner]
    have howner : ∀ l, s'.owner l = if r = some l then some (.post v) else s.owner l := by
      intro l; subst hs'; cases r <;> simp [setCur, setCode, setOwner, eq_comm]
    refine ⟨v, ht, ?_, ?_⟩
    · rw [hleft, ha]
      simp only [reduceCtorEq, if_false]
      have : (left n s' v).1 = 0 := by
        by_cases hpp : p = .done
        · have hrn : r = none := by
            have := hord.2.1
            rw [hpp] at this
            cases r with
            | none => rfl
            | some m => simp [Ordered] at this
          have hno : ¬ Holds s' v := by
            rintro ⟨l, hl | hl⟩
            · rw [howner, hrn] at hl
              simp only [reduceCtorEq, if_false] at hl
              have := (hi.own l _).1 hl
              rw [hp0] at this; cases this
            · rw [howner, hrn, hcur'] at hl
              simp only [reduceCtorEq, if_false, if_true] at hl
              have := (hi.own l _).1 hl
              rw [hgf] at this; cases this
          simp [left, ht, hcode, hpp, hno]
        · simp [left, ht, hcode, hpp]
      rcases hx : left n s' v with ⟨x, y⟩
      rw [hx] at this
      subst this
      exact .left _ _ (by simp)
    · intro u hut
      have haf : u < n → Agent.fib (s.cur u) ≠ a := by
        intro hu
        rw [ha]; simp
        exact fun h => hut (hi.inj u v hu ht h)
      refine left_other ?_ ?_ ?_ ?_ ?_
      · rw [hcode, if_neg (by simp [hut]), if_neg (by rw [ha]; simp)]
      · rw [hcur', if_neg hut]
      · intro hu; rw [hcode, if_neg (by simp), if_neg (haf hu)]
      · intro hu l
        rw [howner]
        split
        · rename_i hm
          rw [hown l hm, ha]; simp [Ne.symm hut]
        · rfl
      · intro hu l
        rw [howner]
        split
        · rename_i hm
          rw [hown l hm]; simp; exact fun h => haf hu h.symm
        · rfl
  · cases h

theorem holder_acc {n : Nat} {s : State} {held : Agent → List Lk} (hi : Inv n s held) : Acc (fun s' s => HolderStep n s s') s := by
  have key : ∀ g : Nat → Nat × Code, ∀ s held, Inv n s held → left n s = g → Acc (fun s' s => HolderStep n s s') s := by
    intro g
    induction one_acc less_wf n g with
    | intro g _ ih =>
      intro s held hi hg
      refine ⟨_, fun s' hs => ?_⟩
      obtain ⟨e, o, hh, hcont, h⟩ := id hs
      obtain ⟨held', hi'⟩ := inv_step hi (by cases e <;> simp_all [Event.Continues, Event.Fine]) h
      exact ih _ (hg ▸ holder_less hi hs) s' held' hi' rfl
  exact key _ s held hi rfl

theorem step_obs {n : Nat} {s s' : State} {e : Event} {o : List Event} (h : step n s e = some (s', o)) : o = [e] := by
  simp only [step] at h
  grind

/-- The locks get free when the threads that hold them go on. -/
theorem drain {n : Nat} {s : State} {held : Agent → List Lk} (hi : Inv n s held) :
    ∃ es s', exec (step n) s es = some (s', es) ∧ (∀ e ∈ es, e.Continues) ∧ ∀ l, s'.owner l = none := by
  have hacc := holder_acc hi
  revert held
  induction hacc with
  | intro s _ ih =>
    intro held hi
    by_cases hfree : ∀ l, s.owner l = none
    · exact ⟨[], s, rfl, by simp, hfree⟩
    · obtain ⟨l, hl⟩ := Classical.not_forall.1 hfree
      obtain ⟨a, ha⟩ := Option.ne_none_iff_exists'.1 hl
      obtain ⟨t, e, ht, hh, he, hc, hs⟩ := holder_steps hi (rank l) l a (Nat.le_refl _) ha
      obtain ⟨⟨s', o⟩, hs⟩ := Option.isSome_iff_exists.1 hs
      obtain ⟨held', hi'⟩ := inv_step hi (by cases e <;> simp_all [Event.Continues, Event.Fine]) hs
      obtain ⟨es, s'', h1, h2, h3⟩ := ih s' ⟨e, o, he ▸ hh, hc, hs⟩ hi'
      have ho := step_obs hs
      subst ho
      refine ⟨e :: es, s'', ?_, ?_, h3⟩
      · simp [exec, hs, h1]
      · intro e' he'
        simp at he'
        rcases he' with rfl | he'
        · exact hc
        · exact h2 e' he'

/-! ### Calls that do not wait return -/

/-- Thread `t` is in a call of fiber `f` that does not switch. -/
def InCall (s : State) (t : Tid) (f : Fib) : Prop :=
  s.cur t = f ∧ s.code (.post t) = .done ∧ NoSwitch (s.code (.fib f))

theorem inCall_step {n : Nat} {s s' : State} {held : Agent → List Lk} {e : Event} {o : List Event} {t : Tid} {f : Fib} (hi : Inv n s held) (ht : t < n)
    (hin : InCall s t f) (hb : ∀ c, e ≠ .begin t c) (h : step n s e = some (s', o)) : InCall s' t f := by
  obtain ⟨h1, h2, h3⟩ := hin
  simp only [step] at h
  split at h
  case isFalse => cases h
  rename_i hte
  have hr := runs_agent s e.thread
  generalize s.agent e.thread = a at h hr
  -- a step of another thread does not concern this one
  by_cases het : e.thread = t
  · have ha : a = .fib f := by
      rcases hr with ⟨h, -⟩ | ⟨-, h⟩
      · rw [h, het, h1]
      · rw [het] at h; exact absurd h2 h
    subst ha
    split at h
    · rename_i u c hc; exact absurd (by rw [← het]; rfl) (hb c)
    · rename_i l k hc
      rw [hc] at h3
      replace h3 : NoSwitch k := h3
      split at h <;> cases h
      exact ⟨h1, by simpa [setCode, setOwner] using h2, by simpa [setCode, setOwner] using h3⟩
    · rename_i l k hc
      rw [hc] at h3
      replace h3 : NoSwitch k := h3
      cases h
      exact ⟨h1, by simpa [setCode, setOwner] using h2, by simpa [setCode, setOwner] using h3⟩
    · rename_i l y k hc
      rw [hc] at h3
      split at h <;> cases h
      · exact ⟨h1, by simpa [setCode, setOwner] using h2, by simpa [setCode, setOwner] using h3.1⟩
      · exact ⟨h1, by simpa [setCode, setOwner] using h2, by simpa [setCode, setOwner] using h3.2⟩
    · rename_i i k hc
      rw [hc] at h3
      cases h
      exact ⟨h1, by simpa [setCode, setOwner] using h2, by simpa [setCode, setOwner] using h3 i⟩
    · rename_i v g r p k hc
      rw [hc] at h3
      exact h3.elim
    · cases h
  · have hap : Agent.post t ≠ a := by
      rcases hr with ⟨h, -⟩ | ⟨h, -⟩ <;> rw [h] <;> simp [Ne.symm het]
    have haf : Agent.fib f ≠ a := by
      rcases hr with ⟨h, -⟩ | ⟨h, -⟩ <;> rw [h] <;> simp
      intro hf
      exact het (hi.inj _ _ hte ht (by rw [← hf, h1]))
    split at h
    · split at h <;> cases h
      exact ⟨h1, by simpa [setCode, setOwner, hap] using h2, by simpa [setCode, setOwner, haf] using h3⟩
    · split at h <;> cases h
      exact ⟨h1, by simpa [setCode, setOwner, hap] using h2, by simpa [setCode, setOwner, haf] using h3⟩
    · cases h
      exact ⟨h1, by simpa [setCode, setOwner, hap] using h2, by simpa [setCode, setOwner, haf] using h3⟩
    · split at h <;> cases h <;>
      exact ⟨h1, by simpa [setCode, setOwner, hap] using h2, by simpa [setCode, setOwner, haf] using h3⟩
    · cases h
      exact ⟨h1, by simpa [setCode, setOwner, hap] using h2, by simpa [setCode, setOwner, haf] using h3⟩
    · rename_i v g r p k hc
      split at h <;> cases h
      have hvt : t ≠ v := Ne.symm het
      refine ⟨?_, ?_, ?_⟩
      · cases r <;> simpa [setCur, setCode, setOwner, hvt] using h1
      · cases r <;> simpa [setCur, setCode, setOwner, hap, hvt] using h2
      · cases r <;> simpa [setCur, setCode, setOwner, haf] using h3
    · cases h

theorem inCall_exec {n : Nat} {t : Tid} {f : Fib} (ht : t < n) (es : List Event) : ∀ {s s' : State} {held : Agent → List Lk} {o : List Event}, Inv n s held →
    InCall s t f → (∀ e ∈ es, e.Fine) → (∀ e ∈ es, ∀ c, e ≠ .begin t c) → exec (step n) s es = some (s', o) → InCall s' t f ∧ ∃ held', Inv n s' held' := by
  induction es with
  | nil => intro s s' held o hi hin _ _ h; simp only [exec, Option.some.injEq, Prod.mk.injEq] at h; obtain ⟨rfl, -⟩ := h; exact ⟨hin, held, hi⟩
  | cons e es ih =>
    intro s s' held o hi hin hf hb h
    simp only [exec] at h
    split at h
    · cases h
    · rename_i s1 o1 h1
      split at h
      · cases h
      · rename_i s2 o2 h2
        simp only [Option.some.injEq, Prod.mk.injEq] at h
        obtain ⟨rfl, -⟩ := h
        obtain ⟨held1, hi1⟩ := inv_step hi (hf e (by simp)) h1
        exact ih hi1 (inCall_step hi ht hin (hb e (by simp)) h1) (fun e' he' => hf e' (by simp [he'])) (fun e' he' => hb e' (by simp [he'])) h2

/-- With no locks taken by others a thread finishes a call that does not switch. -/
theorem alone {n : Nat} {t : Tid} {f : Fib} (ht : t < n) : ∀ (c : Code) {s : State} {held : Agent → List Lk}, Inv n s held → InCall s t f → s.code (.fib f) = c →
    (∀ l a, s.owner l = some a → a = .fib f) →
    ∃ es s', exec (step n) s es = some (s', es) ∧ (∀ e ∈ es, e.Continues ∧ e.thread = t) ∧ s'.cur t = f ∧ s'.code (.post t) = .done ∧ s'.code (.fib f) = .done := by
  intro c
  induction sub_wf.apply c with
  | intro c _ ih =>
    intro s held hi hin hc hown
    have hag : s.agent t = .fib f := agent_of_runs (.inl ⟨by rw [hin.1], hin.2.1⟩)
    have go : ∀ e s1 k, step n s e = some (s1, [e]) → e.Continues → e.thread = t → Sub k c → s1.code (.fib f) = k → (∀ l a, s1.owner l = some a → a = .fib f) →
        ∃ es s', exec (step n) s es = some (s', es) ∧ (∀ e ∈ es, e.Continues ∧ e.thread = t) ∧ s'.cur t = f ∧ s'.code (.post t) = .done ∧ s'.code (.fib f) = .done := by
      intro e s1 k hs hcont het hsub hk ho
      obtain ⟨held1, hi1⟩ := inv_step hi (by cases e <;> simp_all [Event.Continues, Event.Fine]) hs
      have hin1 := inCall_step hi ht hin (by intro c hc; rw [hc] at hcont; exact hcont) hs
      obtain ⟨es, s', h1, h2, h3⟩ := ih k hsub hi1 hin1 hk ho
      refine ⟨e :: es, s', by simp [exec, hs, h1], ?_, h3⟩
      intro e' he'
      simp at he'
      rcases he' with rfl | he'
      · exact ⟨hcont, het⟩
      · exact h2 e' he'
    have hord := hi.ord (.fib f)
    rw [hc] at hord
    cases c with
    | done => exact ⟨[], s, rfl, by simp, hin.1, hin.2.1, hc⟩
    | acq l k =>
      have hfree : s.owner l = none := by
        cases ho : s.owner l with
        | none => rfl
        | some b =>
          have hb := hown l b ho
          subst hb
          have := hord.1 l ((hi.own l _).1 ho)
          omega
      refine go (.go t) _ k (by simp [step, Event.thread, ht, hag, hc, hfree]; rfl) trivial rfl (.acq ..) (by simp [setCode]) ?_
      intro m b
      simp only [setCode, setOwner]
      split
      · intro h; cases h; rfl
      · exact hown m b
    | rel l k =>
      refine go (.go t) _ k (by simp [step, Event.thread, ht, hag, hc]; rfl) trivial rfl (.rel ..) (by simp [setCode]) ?_
      intro m b
      simp only [setCode, setOwner]
      split
      · intro h; cases h
      · exact hown m b
    | tryAcq l y k =>
      by_cases hfree : s.owner l = none
      · refine go (.go t) _ y (by simp [step, Event.thread, ht, hag, hc, hfree]; rfl) trivial rfl (.yes ..) (by simp [setCode]) ?_
        intro m b
        simp only [setCode, setOwner]
        split
        · intro h; cases h; rfl
        · exact hown m b
      · exact go (.go t) (setCode s (.fib f) k) k (by simp [step, Event.thread, ht, hag, hc, hfree]) trivial rfl (.no ..) (by simp [setCode]) hown
    | branch k =>
      exact go (.choose t 0) (setCode s (.fib f) (k 0)) (k 0) (by simp [step, Event.thread, ht, hag, hc]) trivial rfl (.branch ..) (by simp [setCode]) hown
    | switch r p k =>
      have := hin.2.2
      rw [hc] at this
      exact this.elim

theorem thread_lt {n : Nat} {s s' : State} {e : Event} {o : List Event} (h : step n s e = some (s', o)) : e.thread < n := by
  simp only [step] at h
  split at h
  · assumption
  · cases h

theorem inCall_begin {n : Nat} {s s' : State} {e : Event} {o : List Event} (h : step n s e = some (s', o)) {t : Tid} {c : Call} (he : e = .begin t c)
    (hc : NoSwitch c.code) : InCall s' t (s.cur t) := by
  simp only [step] at h
  split at h
  case isFalse => cases h
  rename_i htn
  have hr := runs_agent s e.thread
  generalize s.agent e.thread = a at h hr
  split at h
  · rename_i hca
    cases he
    have ha : a = .fib (s.cur t) ∧ s.code (.post t) = .done := by
      rcases hr with hr | hr
      · exact hr
      · rw [hr.1] at hca; exact absurd hca hr.2
    obtain ⟨rfl, hp⟩ := ha
    split at h <;> cases h
    exact ⟨rfl, by simpa [setCode] using hp, by simpa [setCode] using hc⟩
  all_goals cases he
  cases h

end Verif.LockOrder
