import Verif.ChannelIter
import Verif.Props.BufferedChannel
import Verif.Props.UnbufferedChannel

/-!
# Iterating over a channel: C23
-/

namespace Verif.ChanIter

variable {V : Type}

/-! ## Specification of the loop -/

/-- What a fiber's loop is doing. -/
inductive Phase (V : Type)
  | out
  /-- waiting for the next value -/
  | popping
  /-- the channel delivered a value, or reported that there are no more -/
  | got (r : Option V)
  | body (v : V)
  deriving DecidableEq, Repr

abbrev Spec (V : Type) := Fid → Phase V

variable {C : Chan V}

def after (l : Spec V) : Obs V C.O → Spec V
  | .chan o =>
    match C.result o with
    | some (f, r) => (match l f with
      | .popping => upd l f (.got r)
      | _ => l)
    | none => l
  | .began f => upd l f .popping
  | .yielded f v => upd l f (.body v)
  | .stepped f => upd l f .popping
  | .finished f => upd l f .out
  | .left f => upd l f .out
  | _ => l

/-- Nobody has been given a value that the body of the loop has not been entered with. -/
def Settled (l : Spec V) : Prop := ∀ f r, l f ≠ .got r

def Alone (l : Spec V) (f : Fid) : Prop := ∀ g r, l g = .got r → g = f

theorem Settled.alone {l : Spec V} (h : Settled l) (f : Fid) (p : Phase V) : Alone (upd l f p) f := by
  intro g r hg
  refine Classical.byContradiction fun hne => ?_
  rw [upd_apply, if_neg hne] at hg
  exact h g r hg

theorem Settled.upd {l : Spec V} (h : Settled l) (f : Fid) {p : Phase V} (hp : ∀ r, p ≠ .got r) : Settled (upd l f p) := by
  intro g r hg
  rw [upd_apply] at hg
  split at hg
  · exact hp r hg
  · exact h g r hg

def ok (l : Spec V) : Obs V C.O → Prop
  | .chan _ => Settled l
  | .began f => l f = .out ∧ Settled l
  | .yielded f v => l f = .got (some v) ∧ Alone l f
  | .stepped f => (∃ v, l f = .body v) ∧ Settled l
  | .finished f => l f = .got none ∧ Alone l f
  | .left f => (∃ v, l f = .body v) ∧ Settled l
  | .garbage _ => False
  | _ => Settled l

def Runs : Spec V → List (Obs V C.O) → Prop
  | _, [] => True
  | l, o :: tr => ok l o ∧ Runs (after l o) tr

def start : Spec V := fun _ => .out

def replay (tr : List (Obs V C.O)) : Spec V := tr.foldl after start

theorem Runs.append {l : Spec V} {x y : List (Obs V C.O)} : Runs l (x ++ y) ↔ Runs l x ∧ Runs (x.foldl after l) y := by
  induction x generalizing l with
  | nil => simp [Runs]
  | cons o x ih => simp only [List.cons_append, Runs, ih, List.foldl_cons]; exact and_assoc.symm

/-- The loop that a place in the code stands for. -/
def phaseOf : Pc → Store V → Phase V
  | .idle, _ => .out
  | .first, _ => .popping
  | .next, _ => .popping
  | .body, .live v => .body v
  | .body, _ => .out

structure Inv (s : State C) (l : Spec V) : Prop where
  elide : s.elide = true
  ph : ∀ f, l f = phaseOf (s.pc f) (s.st f)
  live : ∀ f, s.pc f = .body → ∃ v, s.st f = .live v

theorem Inv.settled {s : State C} {l : Spec V} (h : Inv s l) : Settled l := by
  intro f r hf
  rw [h.ph f] at hf
  cases h1 : s.pc f <;> cases h2 : s.st f <;> rw [h1, h2] at hf <;> cases hf

theorem Inv.chan {s : State C} {l : Spec V} (h : Inv s l) (c : C.S) : Inv { s with chan := c } l := ⟨h.elide, h.ph, h.live⟩

theorem Inv.popping {s : State C} {l : Spec V} (h : Inv s l) (f : Fid) : l f = .popping ↔ s.pc f = .first ∨ s.pc f = .next := by
  rw [h.ph f]
  cases h1 : s.pc f <;> cases h2 : s.st f <;> simp [phaseOf]

/-- Moving one fiber. -/
theorem Inv.move {s : State C} {l : Spec V} (h : Inv s l) (f : Fid) (p : Pc) (t : Store V) (hp : p = .body → ∃ v, t = .live v) :
    Inv { s with pc := upd s.pc f p, st := upd s.st f t } (upd l f (phaseOf p t)) := by
  refine ⟨h.elide, ?_, ?_⟩
  · intro g
    simp only [upd_apply]
    split
    · rfl
    · exact h.ph g
  · intro g hg
    simp only [upd_apply] at hg ⊢
    split
    · rename_i e; rw [if_pos e] at hg; exact hp hg
    · rename_i e; rw [if_neg e] at hg; exact h.live g hg

theorem inv_feed (os : List C.O) : ∀ {s : State C} {l : Spec V}, Inv s l →
    Runs l (feed s os).2 ∧ Inv (feed s os).1 ((feed s os).2.foldl after l) := by
  induction os with
  | nil => intro s l h; exact ⟨trivial, h⟩
  | cons o os ih =>
    intro s l h
    simp only [feed]
    split
    · rename_i f r hr
      by_cases hp : s.pc f = .first ∨ s.pc f = .next
      · rw [if_pos hp]
        have hl := (h.popping f).2 hp
        have ha : after l (Obs.chan (V := V) o) = upd l f (.got r) := by simp only [after, hr, hl]
        cases r with
        | some v =>
          have hg : got s f (some v) = ({ s with pc := upd s.pc f .body, st := upd s.st f (.live v) }, [.yielded f v]) := by
            simp only [got, h.elide]; simp
          have hm := h.move f .body (.live v) (fun _ => ⟨v, rfl⟩)
          obtain ⟨i1, i2⟩ := ih hm
          have hb : after (C := C) (after l (Obs.chan (V := V) o)) (.yielded f v) = upd l f (.body v) := by rw [ha]; simp only [after]; funext g; simp only [upd_apply]; split <;> rfl
          simp only [hg, List.cons_append, List.nil_append]
          refine ⟨⟨h.settled, ⟨?_, ?_⟩⟩, ?_⟩
          · rw [ha]; exact ⟨upd_same .., h.settled.alone f _⟩
          · rw [hb]; exact i1
          · simp only [List.foldl_cons, hb]; exact i2
        | none =>
          have hm := h.move f .idle .raw (fun h => by cases h)
          obtain ⟨i1, i2⟩ := ih hm
          have hb : after (C := C) (after l (Obs.chan (V := V) o)) (.finished f) = upd l f .out := by rw [ha]; simp only [after]; funext g; simp only [upd_apply]; split <;> rfl
          simp only [got, List.cons_append, List.nil_append]
          refine ⟨⟨h.settled, ⟨?_, ?_⟩⟩, ?_⟩
          · rw [ha]; exact ⟨upd_same .., h.settled.alone f _⟩
          · rw [hb]; exact i1
          · simp only [List.foldl_cons, hb]; exact i2
      · rw [if_neg hp]
        have ha : after l (Obs.chan (V := V) o) = l := by
          simp only [after, hr]
          split
          · rename_i hl; exact absurd ((h.popping f).1 hl) hp
          · rfl
        obtain ⟨i1, i2⟩ := ih h
        refine ⟨⟨h.settled, ?_⟩, ?_⟩
        · rw [ha]; exact i1
        · simp only [List.foldl_cons, ha]; exact i2
    · rename_i hr
      have ha : after l (Obs.chan (V := V) o) = l := by simp only [after, hr]
      obtain ⟨i1, i2⟩ := ih h
      refine ⟨⟨h.settled, ?_⟩, ?_⟩
      · rw [ha]; exact i1
      · simp only [List.foldl_cons, ha]; exact i2

theorem inv_step {s s' : State C} {l : Spec V} (hi : Inv s l) {e : Event C} {o : List (Obs V C.O)} (hs : step s e = some (s', o)) :
    Runs l o ∧ Inv s' (o.foldl after l) := by
  cases e with
  | chan e =>
    simp only [step] at hs
    split at hs
    · rename_i c os _
      simp only [Option.some.injEq] at hs
      have := inv_feed os (hi.chan c)
      rw [hs] at this; exact this
    · cases hs
  | start f =>
    simp only [step] at hs
    split at hs
    case isFalse => cases hs
    rename_i hp
    split at hs
    · rename_i c os _
      simp only [Option.some.injEq, Prod.mk.injEq] at hs
      obtain ⟨rfl, rfl⟩ := hs
      have := inv_feed os ((hi.move f .first .raw (fun h => by cases h)).chan c)
      have hl : l f = .out := by rw [hi.ph f, hp]; rfl
      exact ⟨⟨⟨hl, hi.settled⟩, this.1⟩, this.2⟩
    · cases hs
  | next f =>
    simp only [step] at hs
    split at hs
    case isFalse => cases hs
    rename_i hp
    split at hs
    · rename_i c os _
      simp only [Option.some.injEq, Prod.mk.injEq] at hs
      obtain ⟨rfl, rfl⟩ := hs
      obtain ⟨v, hv⟩ := hi.live f hp
      have := inv_feed os ((hi.move f .next .dead (fun h => by cases h)).chan c)
      have hl : l f = .body v := by rw [hi.ph f, hp, hv]; rfl
      rw [hv]
      have h1 : Settled (upd l f .popping) := hi.settled.upd f (fun _ h => by cases h)
      exact ⟨⟨⟨⟨v, hl⟩, hi.settled⟩, h1, h1, this.1⟩, this.2⟩
    · cases hs
  | leave f =>
    simp only [step] at hs
    split at hs
    case isFalse => cases hs
    rename_i hp
    simp only [Option.some.injEq, Prod.mk.injEq] at hs
    obtain ⟨rfl, rfl⟩ := hs
    obtain ⟨v, hv⟩ := hi.live f hp
    have hl : l f = .body v := by rw [hi.ph f, hp, hv]; rfl
    rw [hv]
    exact ⟨⟨⟨⟨v, hl⟩, hi.settled⟩, hi.settled.upd f (fun _ h => by cases h), trivial⟩, hi.move f .idle .raw (fun h => by cases h)⟩

theorem inv_init (c : C.S) : Inv (init C true c) start := ⟨rfl, fun _ => rfl, fun _ h => by cases h⟩

variable {c₀ : C.S} {s : State C} {tr : List (Obs V C.O)}

theorem reach_inv (h : Reach step (init C true c₀) s tr) : Runs start tr ∧ Inv s (replay tr) := by
  refine h.inv (P := fun s tr => Runs start tr ∧ Inv s (replay tr)) ⟨trivial, inv_init c₀⟩ ?_
  intro s tr e s' o _ hp hs
  obtain ⟨h1, h2⟩ := inv_step hp.2 hs
  exact ⟨Runs.append.2 ⟨hp.1, h1⟩, by rw [replay, List.foldl_append]; exact h2⟩

/-- **C23, partial**: a range-for loop enters its body with exactly the values that its `value_pop` calls return, one after
the other, and ends when one throws. (Provided that `auto b = begin( chan)` does not copy.) -/
theorem loop_conforms_partial (h : Reach step (init C true c₀) s tr) : Runs start tr := (reach_inv h).1

/-! ## The channel below -/

def chanObs : List (Obs V C.O) → List C.O
  | [] => []
  | .chan o :: tr => o :: chanObs tr
  | _ :: tr => chanObs tr

theorem chanObs_append (x y : List (Obs V C.O)) : chanObs (x ++ y) = chanObs x ++ chanObs y := by
  induction x with
  | nil => rfl
  | cons o x ih => cases o <;> simp [chanObs, ih]

theorem chanObs_destroy (f : Fid) (t : Store V) : chanObs (C := C) (destroy f t) = [] := by cases t <;> rfl

theorem chanObs_abandon (f : Fid) (t : Store V) : chanObs (C := C) (abandon f t) = [] := by cases t <;> rfl

theorem feed_chan (os : List C.O) : ∀ s : State C, chanObs (feed s os).2 = os ∧ (feed s os).1.chan = s.chan := by
  induction os with
  | nil => intro s; exact ⟨rfl, rfl⟩
  | cons o os ih =>
    intro s
    simp only [feed]
    split
    · rename_i f r _
      split
      · have h1 : chanObs (got s f r).2 = [] ∧ (got s f r).1.chan = s.chan := by
          cases r with
          | none => exact ⟨rfl, rfl⟩
          | some v => simp only [got]; split <;> exact ⟨rfl, rfl⟩
        simp only [chanObs, chanObs_append, h1.1, List.nil_append, (ih _).1, true_and]
        rw [(ih _).2, h1.2]
      · simp only [chanObs, (ih s).1, true_and]; exact (ih s).2
    · simp only [chanObs, (ih s).1, true_and]; exact (ih s).2

/-- The channel below runs as it does on its own. -/
theorem chan_reach {b : Bool} (h : Reach step (init C b c₀) s tr) : Reach C.step c₀ s.chan (chanObs tr) := by
  induction h with
  | refl => exact .refl
  | tail e h hs ih =>
    rename_i s tr s' o
    rw [chanObs_append]
    cases e with
    | chan e =>
      simp only [step] at hs
      split at hs
      · rename_i c os hc
        simp only [Option.some.injEq] at hs
        have := feed_chan os { s with chan := c }
        rw [hs] at this
        rw [this.1, this.2]
        exact .tail e ih hc
      · cases hs
    | start f =>
      simp only [step] at hs
      split at hs
      case isFalse => cases hs
      split at hs
      · rename_i c os hc
        simp only [Option.some.injEq, Prod.mk.injEq] at hs
        obtain ⟨rfl, rfl⟩ := hs
        have := feed_chan os { s with chan := c, pc := upd s.pc f .first, st := upd s.st f .raw }
        simp only [chanObs]
        rw [this.1, this.2]
        exact .tail _ ih hc
      · cases hs
    | next f =>
      simp only [step] at hs
      split at hs
      case isFalse => cases hs
      split at hs
      · rename_i c os hc
        simp only [Option.some.injEq, Prod.mk.injEq] at hs
        obtain ⟨rfl, rfl⟩ := hs
        have := feed_chan os { s with chan := c, pc := upd s.pc f .next, st := upd s.st f .dead }
        simp only [chanObs, chanObs_append, chanObs_destroy, List.nil_append]
        rw [this.1, this.2]
        exact .tail _ ih hc
      · cases hs
    | leave f =>
      simp only [step] at hs
      split at hs
      case isFalse => cases hs
      simp only [Option.some.injEq, Prod.mk.injEq] at hs
      obtain ⟨rfl, rfl⟩ := hs
      simp only [chanObs, chanObs_abandon, List.append_nil]
      exact ih

theorem last_got {x : List (Obs V C.O)} {f : Fid} {r : Option V} (h : Runs start x) (hg : replay x f = .got r) :
    ∃ x' o, x = x' ++ [.chan o] ∧ C.result o = some (f, r) ∧ replay x' f = .popping := by
  rcases List.eq_nil_or_concat x with rfl | ⟨x', o, rfl⟩
  · cases hg
  · rw [List.concat_eq_append] at h hg ⊢
    obtain ⟨h1, h2, -⟩ := Runs.append.1 h
    have hg : after (replay x') o f = .got r := by rw [replay, List.foldl_append] at hg; exact hg
    have h2 : ok (replay x') o := h2
    generalize hl : replay x' = l at h2 hg
    cases o with
    | chan o =>
      simp only [after] at hg
      have h2 : Settled l := h2
      cases hr : C.result o with
      | none => simp only [hr] at hg; exact absurd hg (h2 f r)
      | some q =>
        obtain ⟨g, r'⟩ := q
        simp only [hr] at hg
        cases hp : l g with
        | popping =>
          simp only [hp, upd_apply] at hg
          split at hg
          · rename_i e
            subst e
            cases hg
            exact ⟨x', o, rfl, hr, by rw [hl]; exact hp⟩
          · exact absurd hg (h2 f r)
        | out => simp only [hp] at hg; exact absurd hg (h2 f r)
        | body v => simp only [hp] at hg; exact absurd hg (h2 f r)
        | got r' => exact absurd hp (h2 g r')
    | began g =>
      simp only [after, upd_apply] at hg
      split at hg
      · cases hg
      · exact absurd hg (h2.2 f r)
    | stepped g =>
      simp only [after, upd_apply] at hg
      split at hg
      · cases hg
      · exact absurd hg (h2.2 f r)
    | left g =>
      simp only [after, upd_apply] at hg
      split at hg
      · cases hg
      · exact absurd hg (h2.2 f r)
    | yielded g v =>
      simp only [after, upd_apply] at hg
      split at hg
      · cases hg
      · rename_i hne; exact absurd (h2.2 f r hg) hne
    | finished g =>
      simp only [after, upd_apply] at hg
      split at hg
      · cases hg
      · rename_i hne; exact absurd (h2.2 f r hg) hne
    | garbage g => exact h2.elim
    | destroyed g v => exact absurd hg (h2 f r)
    | dead g => exact absurd hg (h2 f r)
    | leaked g v => exact absurd hg (h2 f r)

/-- A loop ends right after its `value_pop` threw. -/
theorem finished_after_throw (h : Reach step (init C true c₀) s tr) {x y : List (Obs V C.O)} {f : Fid} (htr : tr = x ++ .finished f :: y) :
    ∃ x' o, x = x' ++ [.chan o] ∧ C.result o = some (f, none) ∧ replay x' f = .popping := by
  have hr := (reach_inv h).1
  rw [htr, Runs.append] at hr
  exact last_got hr.1 hr.2.1.1

/-- The body is entered right after `value_pop` returned the value. -/
theorem yielded_after_pop (h : Reach step (init C true c₀) s tr) {x y : List (Obs V C.O)} {f : Fid} {v : V} (htr : tr = x ++ .yielded f v :: y) :
    ∃ x' o, x = x' ++ [.chan o] ∧ C.result o = some (f, some v) ∧ replay x' f = .popping := by
  have hr := (reach_inv h).1
  rw [htr, Runs.append] at hr
  exact last_got hr.1 hr.2.1.1

/-! ## Which values the loops see -/

/-- The values with which bodies of loops are entered, in the order in which this happens. -/
def yieldedVals : List (Obs V C.O) → List V
  | [] => []
  | .yielded _ v :: tr => v :: yieldedVals tr
  | _ :: tr => yieldedVals tr

/-- The values that `value_pop` calls return. -/
def popVals (os : List C.O) : List V := os.filterMap fun o => (C.result o).bind (·.2)

/-- `value_pop` is only called by loops. -/
def OnlyLoops (tr : List (Obs V C.O)) : Prop :=
  ∀ x o y f r, tr = x ++ .chan o :: y → C.result o = some (f, r) → replay x f = .popping

def isPopping : Phase V → Bool
  | .popping => true
  | _ => false

def onlyB : Spec V → List (Obs V C.O) → Bool
  | _, [] => true
  | l, .chan o :: tr =>
    (match C.result o with
      | some (f, _) => isPopping (l f)
      | none => true) && onlyB (after l (.chan o)) tr
  | l, o :: tr => onlyB (after l o) tr

theorem onlyLoops_of {tr : List (Obs V C.O)} (h : onlyB start tr = true) : OnlyLoops tr := by
  intro x o y f r htr hr
  have key : ∀ (x : List (Obs V C.O)) (l : Spec V), onlyB l (x ++ .chan o :: y) = true → (x.foldl after l) f = .popping := by
    intro x
    induction x with
    | nil =>
      intro l hl
      simp only [List.nil_append, onlyB, hr, Bool.and_eq_true] at hl
      have := hl.1
      simp only [isPopping] at this
      split at this
      · assumption
      · cases this
    | cons a x ih =>
      intro l hl
      refine ih _ ?_
      cases a with
      | chan a => simp only [List.cons_append, onlyB, Bool.and_eq_true] at hl; exact hl.2
      | _ => exact hl
  rw [htr] at h
  exact key x start h

theorem yieldedVals_append (x y : List (Obs V C.O)) : yieldedVals (x ++ y) = yieldedVals x ++ yieldedVals y := by
  induction x with
  | nil => rfl
  | cons o x ih => cases o <;> simp [yieldedVals, ih]

theorem yieldedVals_destroy (f : Fid) (t : Store V) : yieldedVals (C := C) (destroy f t) = [] := by cases t <;> rfl

theorem yieldedVals_abandon (f : Fid) (t : Store V) : yieldedVals (C := C) (abandon f t) = [] := by cases t <;> rfl

theorem feed_yields (os : List C.O) : ∀ s : State C, (yieldedVals (feed s os).2).Sublist (popVals os) := by
  induction os with
  | nil => intro s; exact List.Sublist.refl _
  | cons o os ih =>
    intro s
    simp only [feed, popVals, List.filterMap_cons]
    split
    · rename_i f r hr
      simp only [hr, Option.bind_some]
      split
      · simp only [yieldedVals, yieldedVals_append]
        cases r with
        | none => simp only [got, yieldedVals, List.nil_append]; exact ih _
        | some v =>
          simp only [got]
          split
          · simp only [yieldedVals, List.nil_append]; exact (ih _).cons _
          · simp only [yieldedVals, List.singleton_append]; exact (ih _).cons_cons _
      · simp only [yieldedVals]
        cases r with
        | none => exact ih _
        | some v => exact (ih _).cons _
    · rename_i hr
      simp only [hr, Option.bind_none, yieldedVals]; exact ih _

/-- No step of the loops makes up a value or repeats one. -/
theorem yields_sublist {b : Bool} (h : Reach step (init C b c₀) s tr) : (yieldedVals tr).Sublist (popVals (chanObs tr)) := by
  induction h with
  | refl => exact List.Sublist.refl _
  | tail e h hs ih =>
    rename_i s tr s' o
    rw [chanObs_append, yieldedVals_append, popVals, List.filterMap_append]
    refine ih.append ?_
    cases e with
    | chan e =>
      simp only [step] at hs
      split at hs
      · rename_i c os hc
        simp only [Option.some.injEq] at hs
        have h1 := feed_chan os { s with chan := c }
        have h2 := feed_yields os { s with chan := c }
        rw [hs] at h1 h2
        rw [h1.1]; exact h2
      · cases hs
    | start f =>
      simp only [step] at hs
      split at hs
      case isFalse => cases hs
      split at hs
      · rename_i c os hc
        simp only [Option.some.injEq, Prod.mk.injEq] at hs
        obtain ⟨rfl, rfl⟩ := hs
        simp only [chanObs, yieldedVals]
        rw [(feed_chan os _).1]; exact feed_yields os _
      · cases hs
    | next f =>
      simp only [step] at hs
      split at hs
      case isFalse => cases hs
      split at hs
      · rename_i c os hc
        simp only [Option.some.injEq, Prod.mk.injEq] at hs
        obtain ⟨rfl, rfl⟩ := hs
        simp only [chanObs, chanObs_append, chanObs_destroy, yieldedVals, yieldedVals_append, yieldedVals_destroy, List.nil_append]
        rw [(feed_chan os _).1]; exact feed_yields os _
      · cases hs
    | leave f =>
      simp only [step] at hs
      split at hs
      case isFalse => cases hs
      simp only [Option.some.injEq, Prod.mk.injEq] at hs
      obtain ⟨rfl, rfl⟩ := hs
      simp only [chanObs, chanObs_abandon, yieldedVals, yieldedVals_abandon]
      exact List.Sublist.refl _

/-- The converse, on traces: with nothing pending at the start and at the end, what the loops obtain they yield. -/
theorem yields_all : ∀ (n : Nat) (tr : List (Obs V C.O)) (l : Spec V), tr.length ≤ n → Runs l tr → Settled l → Settled (tr.foldl after l) →
    (∀ x o y f r, tr = x ++ .chan o :: y → C.result o = some (f, r) → (x.foldl after l) f = .popping) →
    yieldedVals tr = popVals (chanObs tr) := by
  intro n
  induction n with
  | zero => intro tr l hn; have : tr = [] := List.length_eq_zero_iff.1 (Nat.le_zero.1 hn); subst this; intros; rfl
  | succ n ih =>
    intro tr l hn hr hl he hp
    cases tr with
    | nil => rfl
    | cons o tr =>
      have hn' : tr.length ≤ n := Nat.le_of_succ_le_succ hn
      have hp' : ∀ x o' y f r, tr = x ++ .chan o' :: y → C.result o' = some (f, r) → (x.foldl after (after l o)) f = .popping :=
        fun x o' y f r h1 h2 => hp (o :: x) o' y f r (by rw [h1]; rfl) h2
      have simple : Settled (after l o) → yieldedVals tr = popVals (chanObs tr) := fun h => ih tr _ hn' hr.2 h he hp'
      cases o with
      | chan o =>
        cases hres : C.result o with
        | none =>
          have ha : after l (Obs.chan (V := V) o) = l := by simp only [after, hres]
          simp only [yieldedVals, chanObs, popVals, List.filterMap_cons, hres, Option.bind_none]
          exact simple (by rw [ha]; exact hl)
        | some q =>
          obtain ⟨f, r⟩ := q
          have hpop : l f = .popping := hp [] o tr f r rfl hres
          have ha : after l (Obs.chan (V := V) o) = upd l f (.got r) := by simp only [after, hres, hpop]
          have hgot : (upd l f (.got r)) f = .got r := upd_same ..
          cases tr with
          | nil => exact absurd (by rw [List.foldl_cons, ha]; exact hgot) (he f r)
          | cons o2 tr =>
            obtain ⟨-, h2, h3⟩ := hr
            rw [ha] at h2 h3 hp'
            rw [List.foldl_cons, ha] at he
            have hn2 : tr.length ≤ n := Nat.le_of_succ_le hn'
            have hp2 : ∀ x o' y f' r', tr = x ++ .chan o' :: y → C.result o' = some (f', r') →
                (x.foldl after (after (upd l f (.got r)) o2)) f' = .popping :=
              fun x o' y f' r' h1 h2 => hp' (o2 :: x) o' y f' r' (by rw [h1]; rfl) h2
            cases o2 with
            | yielded g v =>
              have hg := h2.2 f r hgot
              subst hg
              have h5 := h2.1
              rw [hgot] at h5
              cases h5
              simp only [yieldedVals, chanObs, popVals, List.filterMap_cons, hres, Option.bind_some]
              congr 1
              refine ih tr _ hn2 h3 ?_ he hp2
              intro g r hg
              simp only [after, upd_apply] at hg
              split at hg
              · cases hg
              · exact hl g r hg
            | finished g =>
              have hg := h2.2 f r hgot
              subst hg
              have h5 := h2.1
              rw [hgot] at h5
              cases h5
              simp only [yieldedVals, chanObs, popVals, List.filterMap_cons, hres, Option.bind_some]
              refine ih tr _ hn2 h3 ?_ he hp2
              intro g r hg
              simp only [after, upd_apply] at hg
              split at hg
              · cases hg
              · exact hl g r hg
            | garbage g => exact h2.elim
            | chan o => exact absurd hgot (h2 f r)
            | began g => exact absurd hgot (h2.2 f r)
            | stepped g => exact absurd hgot (h2.2 f r)
            | left g => exact absurd hgot (h2.2 f r)
            | destroyed g v => exact absurd hgot (h2 f r)
            | dead g => exact absurd hgot (h2 f r)
            | leaked g v => exact absurd hgot (h2 f r)
      | yielded g v => exact absurd hr.1.1 (hl g _)
      | finished g => exact absurd hr.1.1 (hl g _)
      | garbage g => exact hr.1.elim
      | began g => exact simple (hl.upd g (fun _ h => by cases h))
      | stepped g => exact simple (hl.upd g (fun _ h => by cases h))
      | left g => exact simple (hl.upd g (fun _ h => by cases h))
      | destroyed g v => exact simple hl
      | dead g => exact simple hl
      | leaked g v => exact simple hl

/-- Loops lose nothing: if only loops call `value_pop`, the values the channel hands out are those the loops yield. -/
theorem yields_eq (h : Reach step (init C true c₀) s tr) (ho : OnlyLoops tr) : yieldedVals tr = popVals (chanObs tr) := by
  obtain ⟨h1, h2⟩ := reach_inv h
  exact yields_all tr.length tr start (Nat.le_refl _) h1 (fun f r h => by cases h) h2.settled ho

theorem chanObs_mid (x : List (Obs V C.O)) (o : C.O) (f : Fid) (y : List (Obs V C.O)) :
    chanObs (x ++ [.chan o] ++ .finished f :: y) = chanObs x ++ o :: chanObs y := by
  rw [chanObs_append, chanObs_append, List.append_assoc]; rfl

theorem mem_chanObs {tr : List (Obs V C.O)} {o : C.O} (h : .chan o ∈ tr) : o ∈ chanObs tr := by
  obtain ⟨x, y, rfl⟩ := List.append_of_mem h
  rw [chanObs_append]
  exact List.mem_append_right _ (List.mem_cons_self ..)

theorem chanObs_snoc (x : List (Obs V C.O)) (o : C.O) : chanObs (x ++ [.chan o]) = chanObs x ++ [o] := chanObs_append ..

theorem buf_threw {o : BufCh.Obs V} {f : Fid} (h : (buf V).result o = some (f, none)) : ∃ w t, o = .ret f .valuePop .threw w t := by
  cases o with
  | ret g op r w t =>
    cases op <;> cases r <;> simp only [buf, reduceCtorEq] at h
    · rename_i v; cases v <;> simp at h
    · simp only [Option.some.injEq, Prod.mk.injEq, and_true] at h; subst h; exact ⟨w, t, rfl⟩
  | _ => simp [buf] at h

theorem unbuf_threw {o : Unbuf.Obs V} {f : Fid} (h : (unbuf V).result o = some (f, none)) : ∃ k t, o = .ret f k .valuePop .threw t := by
  cases o with
  | ret g k op r t =>
    cases op <;> cases r <;> simp only [unbuf, reduceCtorEq] at h
    · simp at h
    · simp only [Option.some.injEq, Prod.mk.injEq, and_true] at h; subst h; exact ⟨k, t, rfl⟩
  | _ => simp [unbuf] at h

theorem unbuf_popped {o : Unbuf.Obs V} {f : Fid} {v : V} (h : (unbuf V).result o = some (f, some v)) : ∃ k t, o = .ret f k .valuePop (.popped v) t := by
  cases o with
  | ret g k op r t =>
    cases op <;> cases r <;> simp only [unbuf, reduceCtorEq] at h
    · simp only [Option.some.injEq, Prod.mk.injEq] at h; obtain ⟨rfl, rfl⟩ := h; exact ⟨k, t, rfl⟩
    · simp at h
  | _ => simp [unbuf] at h

/-! ## Buffered channel -/

section Buf
open BufCh (pushedVals poppedVals closedIn)
variable [DecidableEq V] {cap : Nat} {s : State (buf V)} {tr : List (Obs V (BufCh.Obs V))}

/-- Values are received only through `value_pop`. -/
def OnlyValuePop (os : List (BufCh.Obs V)) : Prop := ∀ f op v w t, .ret f op (.popped v) w t ∈ os → op = .valuePop

theorem popVals_sublist (os : List (BufCh.Obs V)) : (popVals (C := buf V) os).Sublist (poppedVals os) := by
  induction os with
  | nil => exact List.Sublist.refl _
  | cons o os ih =>
    cases o with
    | ret f op r w t =>
      cases r with
      | popped v =>
        cases v with
        | none => cases op <;> exact ih
        | some v =>
          cases op
          case valuePop => exact List.Sublist.cons_cons v ih
          all_goals exact List.Sublist.cons v ih
      | _ => cases op <;> exact ih
    | _ => exact ih

theorem popVals_eq (os : List (BufCh.Obs V)) (h : OnlyValuePop os) : popVals (C := buf V) os = poppedVals os := by
  induction os with
  | nil => rfl
  | cons o os ih =>
    have ih := ih fun f op v w t hm => h f op v w t (List.mem_cons_of_mem _ hm)
    cases o with
    | ret f op r w t =>
      cases r with
      | popped v =>
        have := h f op v w t (List.mem_cons_self ..)
        subst this
        cases v with
        | none => exact ih
        | some v => exact congrArg (v :: ·) ih
      | _ => cases op <;> exact ih
    | _ => exact ih

theorem run_split {x y : List (BufCh.Obs V)} : ∀ {sp sp' : BufCh.Spec V}, sp.run cap (x ++ y) = some sp' →
    ∃ sp1, sp.run cap x = some sp1 ∧ sp1.run cap y = some sp' := by
  induction x with
  | nil => intro sp sp' h; exact ⟨sp, rfl, h⟩
  | cons o x ih =>
    intro sp sp' h
    simp only [List.cons_append, BufCh.Spec.run] at h ⊢
    split at h
    · cases h
    · rename_i sp2 h2
      obtain ⟨sp1, h3, h4⟩ := ih h
      exact ⟨sp1, h3, h4⟩

/-- **C23, partial** (buffered): the loops over a channel, of whatever fibers, together yield each pushed value at most
once, in the order in which they were pushed. -/
theorem buf_in_order_partial (hc : 2 ≤ cap) (h : Reach step (init (buf V) true (BufCh.init cap)) s tr) :
    (yieldedVals (C := buf V) tr).Sublist (pushedVals (chanObs (C := buf V) tr)) := by
  obtain ⟨rest, -, h2, -⟩ := BufCh.exactly_once_fifo hc (chan_reach h)
  rw [h2]
  exact ((yields_sublist h).trans (popVals_sublist _)).trans (List.sublist_append_left ..)

/-- **C23, partial** (buffered): if values are received by loops only, the loops yield every pushed value exactly once and in
order, but for those still in the channel. -/
theorem buf_exactly_once_partial (hc : 2 ≤ cap) (h : Reach step (init (buf V) true (BufCh.init cap)) s tr)
    (h1 : OnlyLoops (C := buf V) tr) (h2 : OnlyValuePop (chanObs (C := buf V) tr)) :
    ∃ rest, s.chan.ring.Rep rest ∧ pushedVals (chanObs (C := buf V) tr) = yieldedVals (C := buf V) tr ++ rest := by
  obtain ⟨rest, h3, h4, -⟩ := BufCh.exactly_once_fifo hc (chan_reach h)
  exact ⟨rest, h3, by rw [h4, yields_eq h h1, popVals_eq _ h2]⟩

/-- **C23, partial** (buffered): a loop ends by itself only when the channel is closed and every pushed value has been received. -/
theorem buf_ends_drained_partial (hc : 2 ≤ cap) (h : Reach step (init (buf V) true (BufCh.init cap)) s tr)
    {x y : List (Obs V (BufCh.Obs V))} {f : Fid} (htr : tr = x ++ .finished f :: y) :
    closedIn (chanObs (C := buf V) x) ∧ pushedVals (chanObs (C := buf V) x) = poppedVals (chanObs (C := buf V) x) := by
  obtain ⟨x', o, rfl, ho, -⟩ := finished_after_throw h htr
  obtain ⟨sp, h1, -⟩ := BufCh.conforms hc (chan_reach h)
  obtain ⟨w, t, rfl⟩ := buf_threw ho
  have hx : chanObs (C := buf V) tr = _ := (congrArg _ htr).trans (chanObs_mid (C := buf V) x' _ f y)
  rw [hx] at h1
  obtain ⟨sp0, h4, h5⟩ := run_split h1
  obtain ⟨sp1, h5, -⟩ := run_split (x := [.ret f .valuePop .threw w t]) h5
  have h5 : sp0.next cap (.ret f .valuePop .threw w t) = some sp1 := by rw [← BufCh.Spec.run_one]; exact h5
  simp only [BufCh.Spec.next, BufCh.Spec.ret] at h5
  split at h5
  case isFalse => cases h5
  split at h5
  case isFalse => cases h5
  rename_i hcl
  simp only [Option.some.injEq] at h5
  have hb : sp1.buf = [] := by rw [← h5]; exact hcl.2.2.2
  have h6 : BufCh.Spec.init.run cap (chanObs (C := buf V) (x' ++ [.chan (.ret f .valuePop .threw w t)])) = some sp1 := by
    have : chanObs (C := buf V) (x' ++ [.chan (.ret f .valuePop .threw w t)]) = _ := chanObs_snoc (C := buf V) x' _
    rw [this]
    refine (BufCh.Spec.run_append (t2 := [.ret f .valuePop .threw w t]) h4).trans ?_
    rw [BufCh.Spec.run_one]
    simp only [BufCh.Spec.next, BufCh.Spec.ret]
    rw [if_pos (by assumption), if_pos hcl, h5]
  refine ⟨?_, ?_⟩
  · refine ((BufCh.closed_run _ _ _ h6).2 ?_).resolve_left (by simp [BufCh.Spec.init])
    rw [← h5]; exact hcl.2.1
  · have := (BufCh.fifo_run _ _ _ h6).1
    rw [hb] at this
    simpa [BufCh.Spec.init] using this

end Buf

/-! ## Unbuffered channel -/

section Unbuf
variable [DecidableEq V] {s : State (unbuf V)} {tr : List (Obs V (Unbuf.Obs V))}

omit [DecidableEq V] in
theorem took_unique {os : List (Unbuf.Obs V)} (h : (Unbuf.tookRefs os).Nodup) {g g' : Fid} {j j' : Nat} {f : Fid} {k : Nat}
    (h1 : .took g' j' f k ∈ os) (h2 : .took g j f k ∈ os) : g' = g ∧ j' = j := by
  induction os with
  | nil => cases h1
  | cons o os ih =>
    have hmem : ∀ g j, .took g j f k ∈ os → (⟨f, k⟩ : Unbuf.Ref) ∈ Unbuf.tookRefs os := fun g j hm =>
      List.mem_filterMap.2 ⟨_, hm, rfl⟩
    have hsub : (Unbuf.tookRefs os).Sublist (Unbuf.tookRefs (o :: os)) := (List.sublist_cons_self ..).filterMap _
    rcases List.mem_cons.1 h1 with e1 | h3
    · subst e1
      rcases List.mem_cons.1 h2 with e2 | h2
      · cases e2; exact ⟨rfl, rfl⟩
      · have hc : (Unbuf.tookRefs (.took g' j' f k :: os)) = ⟨f, k⟩ :: Unbuf.tookRefs os := rfl
        rw [hc] at h
        exact absurd (hmem g j h2) (List.nodup_cons.1 h).1
    · rcases List.mem_cons.1 h2 with e2 | h2
      · subst e2
        have hc : (Unbuf.tookRefs (.took g j f k :: os)) = ⟨f, k⟩ :: Unbuf.tookRefs os := rfl
        rw [hc] at h
        exact absurd (hmem g' j' h3) (List.nodup_cons.1 h).1
      · exact ih (h.sublist hsub) h3 h2

/-- **C23, partial** (unbuffered): what a loop yields was handed over by a `push` of that value to this fiber; no other
receiving call is handed the same. -/
theorem unbuf_handed_over_partial (h : Reach step (init (unbuf V) true Unbuf.init) s tr) {g : Fid} {v : V} (hy : .yielded g v ∈ tr) :
    ∃ j f k dl, .took g j f k ∈ chanObs (C := unbuf V) tr ∧ .called f k (.push v dl) ∈ chanObs (C := unbuf V) tr ∧
      ∀ g' j', .took g' j' f k ∈ chanObs (C := unbuf V) tr → g' = g ∧ j' = j := by
  obtain ⟨x, y, htr⟩ := List.append_of_mem hy
  obtain ⟨x', o, rfl, ho, -⟩ := yielded_after_pop h htr
  obtain ⟨k', t, rfl⟩ := unbuf_popped ho
  have hm : .ret g k' .valuePop (.popped v) t ∈ chanObs (C := unbuf V) tr := by
    refine mem_chanObs (C := unbuf V) ?_
    rw [htr]
    exact List.mem_append_left _ (List.mem_append_right _ (List.mem_cons_self ..))
  obtain ⟨h1, h2, -, h4⟩ := Unbuf.handed_over_once (chan_reach h)
  obtain ⟨f, k, dl, h5, h6, h7⟩ := h4 _ _ _ _ _ hm
  refine ⟨k', f, k, dl, h5, h7, ?_⟩
  intro g' j' h8
  exact took_unique h1 h8 h5

/-- **C23, partial** (unbuffered): a loop ends by itself only when the channel is closed. -/
theorem unbuf_ends_closed_partial (h : Reach step (init (unbuf V) true Unbuf.init) s tr)
    {x y : List (Obs V (Unbuf.Obs V))} {f : Fid} (htr : tr = x ++ .finished f :: y) : ∃ c, .closedAt c ∈ chanObs (C := unbuf V) x := by
  obtain ⟨x', o, rfl, ho, -⟩ := finished_after_throw h htr
  obtain ⟨sp, h1, -⟩ := Unbuf.reach_sim (chan_reach h)
  obtain ⟨k, t, rfl⟩ := unbuf_threw ho
  have hx : chanObs (C := unbuf V) tr = _ := (congrArg _ htr).trans (chanObs_mid (C := unbuf V) x' _ f y)
  rw [hx] at h1
  obtain ⟨sp1, sp2, -, h3, h4, -, -⟩ := Unbuf.Spec.split h1
  have hcl : sp1.closed = true := by
    simp only [Unbuf.Spec.next] at h4
    split at h4
    case h_2 => cases h4
    split at h4
    case isFalse => cases h4
    rename_i c _ hk
    simp only [Unbuf.Spec.ret, hk.2] at h4
    split at h4
    · split at h4
      · assumption
      · cases h4
    · cases h4
  obtain ⟨c, hc⟩ := h3.cl.1 hcl
  refine ⟨c, ?_⟩
  have : chanObs (C := unbuf V) (x' ++ [.chan (.ret f k .valuePop .threw t)]) = _ := chanObs_snoc (C := unbuf V) x' _
  rw [this]
  exact List.mem_append_left _ hc

end Unbuf

/-! ## Objects -/

/-- What C23 says about the objects in the iterators: the value each fiber's iterator holds. -/
abbrev Life (V : Type) := Fid → Option V

def afterL (l : Life V) : Obs V C.O → Life V
  | .yielded f v => upd l f (some v)
  | .destroyed f _ => upd l f none
  | _ => l

def okL (l : Life V) : Obs V C.O → Prop
  | .yielded f _ => l f = none
  | .destroyed f v => l f = some v
  | .dead _ => False
  | .leaked _ _ => False
  | .finished f => l f = none
  | _ => True

def RunsL : Life V → List (Obs V C.O) → Prop
  | _, [] => True
  | l, o :: tr => okL l o ∧ RunsL (afterL l o) tr

def isDead (f : Fid) : Obs V C.O → Bool
  | .dead g => decide (g = f)
  | _ => false

def isStepped (f : Fid) : Obs V C.O → Bool
  | .stepped g => decide (g = f)
  | _ => false

def isLeft (f : Fid) : Obs V C.O → Bool
  | .left g => decide (g = f)
  | _ => false

def anyDestroyed (f : Fid) : Obs V C.O → Bool
  | .destroyed g _ => decide (g = f)
  | _ => false

def anyLeaked (f : Fid) : Obs V C.O → Bool
  | .leaked g _ => decide (g = f)
  | _ => false

/-- The observations of `feed` are those of the channel and the beginnings and ends that they cause. -/
theorem feed_obs (os : List C.O) : ∀ s : State C, ∀ o ∈ (feed s os).2, (∃ c, o = .chan c) ∨ (∃ f v, o = .yielded f v) ∨ (∃ f, o = .garbage f) ∨ ∃ f, o = .finished f := by
  induction os with
  | nil => intro s o ho; cases ho
  | cons c os ih =>
    intro s o ho
    simp only [feed] at ho
    split at ho
    · rename_i f r _
      split at ho
      · simp only [List.mem_cons, List.mem_append] at ho
        rcases ho with rfl | ho | ho
        · exact .inl ⟨_, rfl⟩
        · cases r with
          | none => simp only [got, List.mem_singleton] at ho; exact .inr (.inr (.inr ⟨_, ho⟩))
          | some v =>
            simp only [got] at ho
            split at ho
            · simp only [List.mem_singleton] at ho; exact .inr (.inr (.inl ⟨_, ho⟩))
            · simp only [List.mem_singleton] at ho; exact .inr (.inl ⟨_, _, ho⟩)
        · exact ih _ o ho
      · rcases List.mem_cons.1 ho with rfl | ho
        · exact .inl ⟨_, rfl⟩
        · exact ih _ o ho
    · rcases List.mem_cons.1 ho with rfl | ho
      · exact .inl ⟨_, rfl⟩
      · exact ih _ o ho

theorem feed_count (p : Obs V C.O → Bool) (h1 : ∀ c, p (.chan c) = false) (h2 : ∀ f v, p (.yielded f v) = false) (h3 : ∀ f, p (.garbage f) = false)
    (h4 : ∀ f, p (.finished f) = false) (s : State C) (os : List C.O) : (feed s os).2.countP p = 0 := by
  rw [List.countP_eq_zero]
  intro o ho
  rcases feed_obs os s o ho with ⟨c, rfl⟩ | ⟨f, v, rfl⟩ | ⟨f, rfl⟩ | ⟨f, rfl⟩
  · simp [h1]
  · simp [h2]
  · simp [h3]
  · simp [h4]

/-- **C23 is false of the code**, for every loop and not only for some: each time a loop goes on to the next value, the old
object is destroyed and then a destructor is called once more on the same storage; each time a loop is left, the object in
its iterator is never destroyed. -/
theorem destroyed_twice (h : Reach step (init C true c₀) s tr) (f : Fid) :
    tr.countP (anyDestroyed f) = tr.countP (isStepped f) ∧ tr.countP (isDead f) = tr.countP (isStepped f) ∧
    tr.countP (anyLeaked f) = tr.countP (isLeft f) := by
  induction h with
  | refl => exact ⟨rfl, rfl, rfl⟩
  | tail e h hs ih =>
    rename_i s tr s' o
    have hi := (reach_inv h).2
    have key : o.countP (anyDestroyed f) = o.countP (isStepped f) ∧ o.countP (isDead f) = o.countP (isStepped f) ∧
        o.countP (anyLeaked f) = o.countP (isLeft f) := by
      have fc : ∀ (s : State C) os, (feed s os).2.countP (anyDestroyed f) = 0 ∧ (feed s os).2.countP (isStepped f) = 0 ∧ (feed s os).2.countP (isDead f) = 0 ∧
          (feed s os).2.countP (anyLeaked f) = 0 ∧ (feed s os).2.countP (isLeft f) = 0 := by
        intro s os
        refine ⟨?_, ?_, ?_, ?_, ?_⟩ <;> exact feed_count _ (fun _ => rfl) (fun _ _ => rfl) (fun _ => rfl) (fun _ => rfl) s os
      cases e with
      | chan e =>
        simp only [step] at hs
        split at hs
        · rename_i c os hc
          simp only [Option.some.injEq] at hs
          have := fc { s with chan := c } os
          rw [hs] at this
          simp [this]
        · cases hs
      | start g =>
        simp only [step] at hs
        split at hs
        case isFalse => cases hs
        split at hs
        · rename_i c os hc
          simp only [Option.some.injEq, Prod.mk.injEq] at hs
          obtain ⟨rfl, rfl⟩ := hs
          have := fc { s with chan := c, pc := upd s.pc g .first, st := upd s.st g .raw } os
          simp [List.countP_cons, this, anyDestroyed, isStepped, isDead, anyLeaked, isLeft]
        · cases hs
      | next g =>
        simp only [step] at hs
        split at hs
        case isFalse => cases hs
        rename_i hp
        split at hs
        · rename_i c os hc
          simp only [Option.some.injEq, Prod.mk.injEq] at hs
          obtain ⟨rfl, rfl⟩ := hs
          obtain ⟨v, hv⟩ := hi.live g hp
          have := fc { s with chan := c, pc := upd s.pc g .next, st := upd s.st g .dead } os
          simp [List.countP_cons, this, anyDestroyed, isStepped, isDead, anyLeaked, isLeft, hv, destroy]
        · cases hs
      | leave g =>
        simp only [step] at hs
        split at hs
        case isFalse => cases hs
        rename_i hp
        simp only [Option.some.injEq, Prod.mk.injEq] at hs
        obtain ⟨rfl, rfl⟩ := hs
        obtain ⟨v, hv⟩ := hi.live g hp
        simp [List.countP_cons, anyDestroyed, isStepped, isDead, anyLeaked, isLeft, hv, abandon]
    simp only [List.countP_append]
    omega

/-! ## Concrete runs -/

/-- Fiber 1 pushes 7 and 8 and closes; fiber 2 loops over the channel. -/
def demo : List (Event (buf Nat)) := [.chan (.call 1 (.push 7 none)), .chan (.run 1), .start 2, .chan (.run 2), .chan (.call 1 (.push 8 none)),
  .chan (.run 1), .next 2, .chan (.call 1 .close), .chan (.run 1), .chan (.run 2), .next 2, .chan (.run 2)]

def demoTrace : List (Obs Nat (BufCh.Obs Nat)) := [.chan (.called 1 (.push 7 none)), .chan (.ret 1 (.push 7 none) .pushed [] 0), .began 2,
  .chan (.called 2 .valuePop), .chan (.ret 2 .valuePop (.popped (some 7)) [] 0), .yielded 2 7,
  .chan (.called 1 (.push 8 none)), .chan (.ret 1 (.push 8 none) .pushed [] 0),
  .stepped 2, .destroyed 2 7, .dead 2, .chan (.called 2 .valuePop), .chan (.called 1 .close), .chan (.ret 1 .close .void [] 0),
  .chan (.ret 2 .valuePop (.popped (some 8)) [] 0), .yielded 2 8,
  .stepped 2, .destroyed 2 8, .dead 2, .chan (.called 2 .valuePop), .chan (.ret 2 .valuePop .threw [] 0), .finished 2]

theorem demo_reach : ∃ s, Reach step (init (buf Nat) true (BufCh.init 4)) s demoTrace := ⟨_, reach_of_exec (es := demo) rfl⟩

/-- **C23 refuted**: the object of the first value is destroyed twice. -/
theorem refuted : ∃ s, Reach step (init (buf Nat) true (BufCh.init 4)) s demoTrace ∧ ¬ RunsL (C := buf Nat) (fun _ => none) demoTrace := by
  obtain ⟨s, h⟩ := demo_reach
  refine ⟨s, h, ?_⟩
  rintro ⟨-, -, -, -, -, -, -, -, -, -, h, -⟩
  exact h

/-- **C23 refuted**: a loop that is left with `break` never destroys the object it holds. -/
theorem leak : ∃ s, Reach step (init (buf Nat) true (BufCh.init 4)) s [.chan (.called 1 (.push 7 none)), .chan (.ret 1 (.push 7 none) .pushed [] 0),
    .began 2, .chan (.called 2 .valuePop), .chan (.ret 2 .valuePop (.popped (some 7)) [] 0), .yielded 2 7, .left 2, .leaked 2 7] :=
  ⟨_, reach_of_exec (es := [.chan (.call 1 (.push 7 none)), .chan (.run 1), .start 2, .chan (.run 2), .leave 2]) rfl⟩

/-- Before C++17 a compiler may copy the iterator that `begin` returns; the copy holds no value, and the first value is lost. -/
theorem copied_iterator : ∃ s, Reach step (init (buf Nat) false (BufCh.init 4)) s [.chan (.called 1 (.push 7 none)), .chan (.ret 1 (.push 7 none) .pushed [] 0),
    .began 2, .chan (.called 2 .valuePop), .chan (.ret 2 .valuePop (.popped (some 7)) [] 0), .garbage 2] :=
  ⟨_, reach_of_exec (es := [.chan (.call 1 (.push 7 none)), .chan (.run 1), .start 2, .chan (.run 2)]) rfl⟩

example : Runs (C := buf Nat) start demoTrace := loop_conforms_partial demo_reach.choose_spec

theorem demo_only : OnlyLoops (C := buf Nat) demoTrace := onlyLoops_of rfl

theorem demo_valuePop : OnlyValuePop (chanObs (C := buf Nat) demoTrace) := by
  intro f op v w t h
  have h : BufCh.Obs.ret f op (.popped v) w t ∈ ([.called 1 (.push 7 none), .ret 1 (.push 7 none) .pushed [] 0, .called 2 .valuePop,
    .ret 2 .valuePop (.popped (some 7)) [] 0, .called 1 (.push 8 none), .ret 1 (.push 8 none) .pushed [] 0, .called 2 .valuePop, .called 1 .close,
    .ret 1 .close .void [] 0, .ret 2 .valuePop (.popped (some 8)) [] 0, .called 2 .valuePop, .ret 2 .valuePop .threw [] 0] : List (BufCh.Obs Nat)) := h
  simp at h
  rcases h with h | h <;> exact h.2.1

example : ∃ (s : State (buf Nat)) (rest : List Nat), s.chan.ring.Rep rest ∧ BufCh.pushedVals (chanObs (C := buf Nat) demoTrace) = yieldedVals (C := buf Nat) demoTrace ++ rest :=
  let ⟨s, h⟩ := demo_reach
  ⟨s, buf_exactly_once_partial (by decide) h demo_only demo_valuePop⟩

example : yieldedVals (C := buf Nat) demoTrace = [7, 8] := rfl

example : BufCh.closedIn (chanObs (C := buf Nat) demoTrace.dropLast) :=
  (buf_ends_drained_partial (by decide) demo_reach.choose_spec (x := demoTrace.dropLast) (f := 2) (y := []) rfl).1

example : demoTrace.countP (isDead (C := buf Nat) 2) = 2 := rfl

/-- A loop over an unbuffered channel receives 7 and ends when the channel is closed. -/
def demoU : List (Event (unbuf Nat)) := [.start 2, .chan (.call 1 (.push 7 none)), .chan (.run 1), .chan (.run 1), .chan (.run 1),
  .chan (.run 2), .chan (.run 2), .chan (.run 2), .chan (.run 2), .chan (.run 1), .chan (.run 1), .chan (.call 1 .close), .chan (.run 1), .chan (.run 1), .chan (.run 1),
  .chan (.run 1), .next 2, .chan (.run 2), .chan (.run 2)]

def demoUTrace : List (Obs Nat (Unbuf.Obs Nat)) := [.began 2, .chan (.called 2 1 .valuePop), .chan (.called 1 1 (.push 7 none)), .chan (.placed 1 1 7),
  .chan (.took 2 1 1 1), .chan (.ret 2 1 .valuePop (.popped 7) 0), .yielded 2 7, .chan (.ret 1 1 (.push 7 none) .pushed 0),
  .chan (.called 1 2 .close), .chan (.closedAt 1), .chan (.ret 1 2 .close .void 0), .stepped 2, .destroyed 2 7, .dead 2,
  .chan (.called 2 2 .valuePop), .chan (.ret 2 2 .valuePop .threw 0), .finished 2]

theorem demoU_reach : ∃ s, Reach step (init (unbuf Nat) true Unbuf.init) s demoUTrace := ⟨_, reach_of_exec (es := demoU) rfl⟩

example : ∃ j f k dl, .took 2 j f k ∈ chanObs (C := unbuf Nat) demoUTrace ∧ .called f k (.push 7 dl) ∈ chanObs (C := unbuf Nat) demoUTrace ∧
    ∀ g' j', .took g' j' f k ∈ chanObs (C := unbuf Nat) demoUTrace → g' = 2 ∧ j' = j :=
  unbuf_handed_over_partial demoU_reach.choose_spec (by simp [demoUTrace])

example : ∃ c, .closedAt c ∈ chanObs (C := unbuf Nat) demoUTrace.dropLast :=
  unbuf_ends_closed_partial demoU_reach.choose_spec (x := demoUTrace.dropLast) (f := 2) (y := []) rfl

end Verif.ChanIter
