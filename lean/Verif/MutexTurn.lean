import Verif.Props.Mutex

/-!
# Whose turn it is: infinite executions of the mutex machine

The machine is `Verif.Mutex` (`src/mutex.cpp`, `src/timed_mutex.cpp`, `src/recursive_mutex.cpp`, `src/recursive_timed_mutex.cpp`).
`unlock()` makes the mutex free and schedules the fiber that has waited longest (`src/mutex.cpp:64-73`); that fiber has to take the
mutex itself when it runs (`src/mutex.cpp:26-41`), and until then everybody else may take it.
-/

namespace Verif.Mutex

/-- An infinite execution. -/
structure Run (k : Kind) where
  st : Nat → State
  ev : Nat → Event
  ob : Nat → List Obs
  start : st 0 = init
  next : ∀ i, step k (st i) (ev i) = some (st (i + 1), ob i)

namespace Run

variable {k : Kind}

/-- What has been observed before step `i`. -/
def tr (r : Run k) : Nat → List Obs
  | 0 => []
  | i + 1 => r.tr i ++ r.ob i

/-- A fiber that can go on goes on: again and again it makes a step, or there is nothing it could do. -/
def Fair (r : Run k) : Prop := ∀ f i, ∃ j, i ≤ j ∧ (r.ev j = .run f ∨ step k (r.st j) (.run f) = none)

/-- Whoever has the mutex releases it (as often as it has locked it). -/
def Releases (r : Run k) : Prop := ∀ i x, (r.st i).m.owner = some x → ∃ j, i < j ∧ (r.st j).m.owner ≠ some x

/-- Nobody calls `try_lock_for` or `try_lock_until`. -/
def Untimed (r : Run k) : Prop := ∀ i f d, Obs.called f (.tryLockUntil d) ∉ r.ob i

/-- In step `i` a fiber takes the free mutex although another one, which has waited for it and has been scheduled by `unlock()`, is
just about to take it. -/
def Overtaken (r : Run k) (i : Nat) : Prop :=
  ∃ x g, (r.st i).m.owner = none ∧ (r.st (i + 1)).m.owner = some x ∧ notes (r.tr i) x = false ∧ notes (r.tr i) g = true

theorem reach (r : Run k) : ∀ i, Reach (step k) init (r.st i) (r.tr i)
  | 0 => by rw [r.start]; exact .refl
  | i + 1 => .tail (r.ev i) (r.reach i) (r.next i)

end Run

/-! ## Steps without timed calls -/

/-- What a step does to the owner and to the fibers that wait. -/
inductive Kind5 (s s' : State) (o : List Obs) : Prop
  | keep (h : s'.m.owner = s.m.owner) (hl : liveList s'.c s'.q = liveList s.c s.q)
      (hu : ∀ f g, Obs.unlockRet f (some g) ∉ o) (hb : ∀ f, Obs.blocks f ∉ o)
  | take (x : Fid) (h : s.m.owner = none) (h' : s'.m.owner = some x) (hl : liveList s'.c s'.q = liveList s.c s.q)
      (ho : (o = [.lockRet x] ∧ s.pc x = .lockEntry) ∨ (o = [] ∧ s.pc x = .tryEntry))
  | block (x : Fid) (h : s.m.owner ≠ none) (h' : s'.m.owner = s.m.owner) (hl : liveList s'.c s'.q = liveList s.c s.q ++ [x])
      (ho : o = [.blocks x])
  | free (x : Fid) (h : s.m.owner = some x) (h' : s'.m.owner = none) (hl : liveList s'.c s'.q = (liveList s.c s.q).tail)
      (ho : o = [.unlockRet x (liveList s.c s.q).head?])

theorem kind5 {k : Kind} {s s' : State} {o : List Obs} {e : Event} (hi : Inv k s) (ht : ∀ f, isUntil (s.pc f) = false)
    (hs : step k s e = some (s', o)) : Kind5 s s' o := by
  cases e with
  | call f op =>
    simp only [step] at hs
    split at hs <;> simp only [Option.some.injEq, Prod.mk.injEq, reduceCtorEq] at hs
    obtain ⟨rfl, rfl⟩ := hs
    exact .keep rfl rfl (by simp) (by simp)
  | timer f =>
    simp only [step] at hs
    have := ht f
    split at hs <;> try simp only [reduceCtorEq] at hs
    simp_all [isUntil]
  | tick n =>
    simp only [step, Option.some.injEq, Prod.mk.injEq] at hs
    obtain ⟨rfl, rfl⟩ := hs
    exact .keep rfl rfl (by simp) (by simp)
  | elsewhere f n =>
    have hr := refine_step (k := k) hi hs
    simp only [step] at hs
    split at hs <;> simp only [Option.some.injEq, Prod.mk.injEq, reduceCtorEq] at hs
    obtain ⟨rfl, rfl⟩ := hs
    refine .keep rfl ?_ (by simp) (by simp)
    simp only [Spec.run, Option.some.injEq] at hr
    exact (congrArg Spec.waiting hr).symm
  | run f =>
    have hf := ht f
    simp only [step, run] at hs
    split at hs
    · cases hs
    · rename_i hp
      rw [lockCS_eq] at hs
      split at hs <;> simp only [Option.some.injEq, Prod.mk.injEq] at hs <;> obtain ⟨rfl, rfl⟩ := hs
      · exact .keep rfl rfl (by simp) (by simp)
      · rename_i m hm
        by_cases ho : s.m.owner = none
        · refine .take f ho ?_ rfl (.inl ⟨rfl, hp⟩)
          grind
        · refine .keep ?_ rfl (by simp) (by simp)
          grind
      · rename_i hm
        refine .block f (by grind) rfl ?_ rfl
        exact liveList_enqueue (hi.qi.not_mem_of_none (by simp [hp, regOf]))
    · split at hs <;> simp only [Option.some.injEq, Prod.mk.injEq, reduceCtorEq] at hs
      obtain ⟨rfl, rfl⟩ := hs
      exact .keep rfl rfl (by simp) (by simp)
    · rename_i hp
      rw [tryCS_eq] at hs
      split at hs <;> simp only [Option.some.injEq, Prod.mk.injEq] at hs <;> obtain ⟨rfl, rfl⟩ := hs
      · exact .keep rfl rfl (by simp) (by simp)
      · rename_i m hm
        by_cases ho : s.m.owner = none
        · refine .take f ho ?_ rfl (.inr ⟨rfl, hp⟩)
          grind
        · refine .keep ?_ rfl (by simp) (by simp)
          grind
    · simp only [Option.some.injEq, Prod.mk.injEq] at hs; obtain ⟨rfl, rfl⟩ := hs
      exact .keep rfl rfl (by simp) (by simp)
    · rename_i d hp; simp [hp, isUntil] at hf
    · rename_i d hp; simp [hp, isUntil] at hf
    · rename_i e d hp; simp [hp, isUntil] at hf
    · rename_i e d hp; simp [hp, isUntil] at hf
    · rename_i hp
      rw [unlockCS_eq] at hs
      split at hs <;> simp only [Option.some.injEq, Prod.mk.injEq] at hs <;> obtain ⟨rfl, rfl⟩ := hs
      · exact .keep rfl rfl (by simp) (by simp)
      · refine .keep ?_ rfl (by simp) (by simp)
        grind
      · have hn := liveList_notifyOne hi.qi
        refine .free f (by grind) (by grind) hn.2 ?_
        rw [← hn.1]

/-- Only a fiber itself moves in its call. -/
theorem pc_other {k : Kind} {s s' : State} {o : List Obs} {e : Event} {f : Fid} (hs : step k s e = some (s', o))
    (he : e ≠ .run f) (hp : s.pc f ≠ .idle) : s'.pc f = s.pc f := by
  cases e with
  | call g op =>
    simp only [step] at hs
    split at hs <;> simp only [Option.some.injEq, Prod.mk.injEq, reduceCtorEq] at hs
    obtain ⟨rfl, rfl⟩ := hs; grind [upd_apply]
  | timer g =>
    simp only [step] at hs
    split at hs <;> (try split at hs) <;> simp only [Option.some.injEq, Prod.mk.injEq, reduceCtorEq] at hs
    obtain ⟨rfl, rfl⟩ := hs; rfl
  | tick n => simp only [step, Option.some.injEq, Prod.mk.injEq] at hs; obtain ⟨rfl, rfl⟩ := hs; rfl
  | elsewhere g n =>
    simp only [step] at hs
    split at hs <;> simp only [Option.some.injEq, Prod.mk.injEq, reduceCtorEq] at hs
    obtain ⟨rfl, rfl⟩ := hs; rfl
  | run g =>
    have hg : f ≠ g := by rintro rfl; exact he rfl
    simp only [step, run] at hs
    split at hs <;> (try split at hs) <;> (try split at hs) <;> simp only [Option.some.injEq, Prod.mk.injEq, reduceCtorEq] at hs <;>
      obtain ⟨rfl, rfl⟩ := hs <;> simp [hg]

theorem run_lockEntry {k : Kind} {s s' : State} {o : List Obs} {f : Fid} (hs : step k s (.run f) = some (s', o))
    (hp : s.pc f = .lockEntry) : (o = [.lockRet f] ∧ s'.m.owner = some f) ∨ (∃ e, o = [.threw f .lock e]) ∨
      (o = [.blocks f] ∧ s.m.owner ≠ none ∧ s'.m.owner = s.m.owner ∧ ∃ ep, s'.pc f = .lockWait ep) := by
  simp only [step, run, hp] at hs
  rw [lockCS_eq] at hs
  split at hs <;> simp only [Option.some.injEq, Prod.mk.injEq] at hs <;> obtain ⟨rfl, rfl⟩ := hs
  · exact .inr (.inl ⟨_, rfl⟩)
  · exact .inl ⟨rfl, by grind⟩
  · exact .inr (.inr ⟨rfl, by grind, rfl, _, by simp; rfl⟩)

theorem run_lockWait {k : Kind} {s s' : State} {o : List Obs} {f : Fid} {ep : Nat} (hs : step k s (.run f) = some (s', o))
    (hp : s.pc f = .lockWait ep) : o = [] ∧ s'.pc f = .lockEntry := by
  simp only [step, run, hp] at hs
  split at hs <;> simp only [Option.some.injEq, Prod.mk.injEq, reduceCtorEq] at hs
  obtain ⟨rfl, rfl⟩ := hs; simp

/-- Fibers in `lock()` stay there until it returns or throws. -/
theorem stays {k : Kind} {s s' : State} {o : List Obs} {e : Event} {f : Fid} (hs : step k s e = some (s', o))
    (hp : s.pc f = .lockEntry ∨ ∃ ep, s.pc f = .lockWait ep) (hn : Obs.lockRet f ∉ o) (ht : ∀ e, Obs.threw f .lock e ∉ o) :
    (s'.pc f = .lockEntry ∨ ∃ ep, s'.pc f = .lockWait ep) := by
  by_cases he : e = .run f
  · subst he
    rcases hp with hp | ⟨ep, hp⟩
    · rcases run_lockEntry hs hp with ⟨rfl, _⟩ | ⟨e, rfl⟩ | ⟨_, _, _, h⟩
      · simp at hn
      · simp at ht
      · exact .inr h
    · exact .inl (run_lockWait hs hp).2
  · rw [pc_other hs he (by rcases hp with hp | ⟨ep, hp⟩ <;> simp [hp])]; exact hp

/-- Without timed calls nobody is in one. -/
theorem no_until {k : Kind} {s s' : State} {o : List Obs} {e : Event} (ht : ∀ f, isUntil (s.pc f) = false)
    (hs : step k s e = some (s', o)) (hc : ∀ f d, Obs.called f (.tryLockUntil d) ∉ o) : ∀ f, isUntil (s'.pc f) = false := by
  cases e with
  | call g op =>
    simp only [step] at hs
    split at hs <;> simp only [Option.some.injEq, Prod.mk.injEq, reduceCtorEq] at hs
    obtain ⟨rfl, rfl⟩ := hs
    intro f
    cases op <;> simp_all [upd_apply, entry] <;> split <;> simp_all [isUntil]
  | timer g =>
    simp only [step] at hs
    split at hs <;> (try split at hs) <;> simp only [Option.some.injEq, Prod.mk.injEq, reduceCtorEq] at hs
    obtain ⟨rfl, rfl⟩ := hs; exact ht
  | tick n => simp only [step, Option.some.injEq, Prod.mk.injEq] at hs; obtain ⟨rfl, rfl⟩ := hs; exact ht
  | elsewhere g n =>
    simp only [step] at hs
    split at hs <;> simp only [Option.some.injEq, Prod.mk.injEq, reduceCtorEq] at hs
    obtain ⟨rfl, rfl⟩ := hs; exact ht
  | run g =>
    have hg := ht g
    simp only [step, run] at hs
    split at hs <;> (try split at hs) <;> (try split at hs) <;> simp only [Option.some.injEq, Prod.mk.injEq, reduceCtorEq] at hs <;>
      obtain ⟨rfl, rfl⟩ := hs <;> intro f <;> simp only [upd_apply] <;> split <;> simp_all [isUntil]

theorem no_untilRet {k : Kind} {s s' : State} {o : List Obs} {e : Event} (ht : ∀ f, isUntil (s.pc f) = false)
    (hs : step k s e = some (s', o)) (f : Fid) (d : Nat) (b : Bool) (t : Nat) : Obs.untilRet f d b t ∉ o := by
  cases e with
  | run g =>
    have hg := ht g
    simp only [step, run] at hs
    grind [isUntil]
  | _ => simp only [step] at hs; grind

/-- Outcomes of other fibers are not mine. -/
theorem obs_other {k : Kind} {s s' : State} {o : List Obs} {e : Event} {f : Fid} (hs : step k s e = some (s', o))
    (he : e ≠ .run f) : Obs.blocks f ∉ o ∧ Obs.lockRet f ∉ o ∧ (∀ d b t, Obs.untilRet f d b t ∉ o) ∧ ∀ op x, Obs.threw f op x ∉ o := by
  cases e with
  | run g =>
    have hg : f ≠ g := by rintro rfl; exact he rfl
    simp only [step, run] at hs
    split at hs <;> (try split at hs) <;> (try split at hs) <;> simp only [Option.some.injEq, Prod.mk.injEq, reduceCtorEq] at hs <;>
      obtain ⟨rfl, rfl⟩ := hs <;> simp [hg]
  | call g op =>
    simp only [step] at hs
    split at hs <;> simp only [Option.some.injEq, Prod.mk.injEq, reduceCtorEq] at hs
    obtain ⟨rfl, rfl⟩ := hs; simp
  | timer g =>
    simp only [step] at hs
    split at hs <;> (try split at hs) <;> simp only [Option.some.injEq, Prod.mk.injEq, reduceCtorEq] at hs
    obtain ⟨rfl, rfl⟩ := hs; split <;> simp
  | tick n => simp only [step, Option.some.injEq, Prod.mk.injEq] at hs; obtain ⟨rfl, rfl⟩ := hs; simp
  | elsewhere g n =>
    simp only [step] at hs
    split at hs <;> simp only [Option.some.injEq, Prod.mk.injEq, reduceCtorEq] at hs
    obtain ⟨rfl, rfl⟩ := hs; simp

/-! ## The fibers that are on their way, as a list -/

def wlStep (w : List Fid) : Obs → List Fid
  | .unlockRet _ (some g) => g :: w
  | .blocks f => w.filter (· ≠ f)
  | .lockRet f => w.filter (· ≠ f)
  | .untilRet f _ _ _ => w.filter (· ≠ f)
  | .threw f _ _ => w.filter (· ≠ f)
  | _ => w

def wl (tr : List Obs) : List Fid := tr.foldl wlStep []

theorem wl_append (tr o : List Obs) : wl (tr ++ o) = o.foldl wlStep (wl tr) := by simp [wl, List.foldl_append]

theorem notes_iff (tr : List Obs) (g : Fid) : notes tr g = true ↔ g ∈ wl tr := by
  have : ∀ (tr : List Obs) (n : Fid → Bool) (w : List Fid), (∀ g, n g = true ↔ g ∈ w) →
      ∀ g, tr.foldl noteStep n g = true ↔ g ∈ tr.foldl wlStep w := by
    intro tr
    induction tr with
    | nil => intro n w h g; exact h g
    | cons x xs ih =>
      intro n w h g
      apply ih
      intro g
      unfold noteStep wlStep
      have hg := h g
      split <;> simp_all [upd_apply] <;> grind
  exact this tr _ _ (by simp) g

theorem wl_le (o : List Obs) (hu : ∀ f g, Obs.unlockRet f (some g) ∉ o) : ∀ w, (o.foldl wlStep w).length ≤ w.length := by
  induction o with
  | nil => simp
  | cons x xs ih =>
    intro w
    simp only [List.foldl_cons]
    refine Nat.le_trans (ih (fun f g h => hu f g (by simp [h])) _) ?_
    unfold wlStep
    have := hu
    split
    · exact absurd List.mem_cons_self (this _ _)
    all_goals first | exact List.length_filter_le _ _ | exact Nat.le_refl _

theorem wl_mem {o : List Obs} {f : Fid} (h : Obs.blocks f ∉ o ∧ Obs.lockRet f ∉ o ∧ (∀ d b t, Obs.untilRet f d b t ∉ o) ∧
    ∀ op x, Obs.threw f op x ∉ o) : ∀ {w : List Fid}, f ∈ w → f ∈ o.foldl wlStep w := by
  induction o with
  | nil => intro w h; exact h
  | cons x xs ih =>
    intro w hw
    simp only [List.foldl_cons]
    refine ih ?_ ?_
    · refine ⟨fun h' => h.1 (by simp [h']), fun h' => h.2.1 (by simp [h']), fun d b t h' => h.2.2.1 d b t (by simp [h']),
        fun op y h' => h.2.2.2 op y (by simp [h'])⟩
    · unfold wlStep
      obtain ⟨h1, h2, h3, h4⟩ := h
      split <;> simp_all
      all_goals grind

theorem filter_lt {w : List Fid} {f : Fid} (h : f ∈ w) : (w.filter (· ≠ f)).length < w.length := by
  have := List.length_filter_lt_length_iff_exists (l := w) (p := fun x => decide (x ≠ f))
  rw [this]; exact ⟨f, h, by simp⟩

namespace Run

variable {k : Kind}

theorem until_none (r : Run k) (hu : r.Untimed) : ∀ i f, isUntil ((r.st i).pc f) = false
  | 0 => by rw [r.start]; intro f; rfl
  | i + 1 => no_until (r.until_none hu i) (r.next i) (hu i)

theorem noSwallow (r : Run k) (hu : r.Untimed) : ∀ i, NoSwallow (fun _ => false) (r.tr i)
  | 0 => trivial
  | i + 1 => by
    simp only [tr]
    rw [noSwallow_append]
    refine ⟨r.noSwallow hu i, ?_⟩
    have := no_untilRet (r.until_none hu i) (r.next i)
    generalize (r.tr i).foldl noteStep (fun _ => false) = n
    generalize r.ob i = o at this
    induction o generalizing n with
    | nil => trivial
    | cons x xs ih =>
      refine ⟨?_, ih _ (fun f d b t hm => this f d b t (by simp [hm]))⟩
      intro f d t hx; exact absurd (by simp [hx]) (this f d false t)

theorem kind (r : Run k) (hu : r.Untimed) (i : Nat) : Kind5 (r.st i) (r.st (i + 1)) (r.ob i) :=
  kind5 (reach_inv (r.reach i)) (r.until_none hu i) (r.next i)

/-- Fibers on their way, and the owner. -/
def tokens (r : Run k) (i : Nat) : Nat := (wl (r.tr i)).length + if (r.st i).m.owner = none then 0 else 1

theorem tokens_step (r : Run k) (hu : r.Untimed) (i : Nat) (ho : ¬ r.Overtaken i) : r.tokens (i + 1) ≤ max (r.tokens i) 1 := by
  have hk := r.kind hu i
  have hw : wl (r.tr (i + 1)) = (r.ob i).foldl wlStep (wl (r.tr i)) := by simp only [tr, wl_append]
  unfold tokens
  rw [hw]
  cases hk with
  | keep h hl hun hb => have := wl_le (r.ob i) hun (wl (r.tr i)); rw [h]; omega
  | take x h h' hl ho' =>
    simp only [h, h', reduceCtorEq, if_true, if_false]
    by_cases hx : x ∈ wl (r.tr i)
    · rcases ho' with ⟨e, _⟩ | ⟨_, hp⟩
      · rw [e]
        have := filter_lt hx
        simp only [List.foldl_cons, List.foldl_nil, wlStep]; omega
      · have := (reach_winv (r.reach i)).way x ((notes_iff _ _).2 hx)
        simp [OnItsWay, hp] at this
    · have he : wl (r.tr i) = [] := by
        cases hwl : wl (r.tr i) with
        | nil => rfl
        | cons g gs =>
          refine absurd ⟨x, g, h, h', ?_, (notes_iff _ _).2 (by simp [hwl])⟩ ho
          cases hn : notes (r.tr i) x with
          | false => rfl
          | true => exact absurd ((notes_iff _ _).1 hn) hx
      rw [he]
      have := wl_le (r.ob i) (by rcases ho' with ⟨e, _⟩ | ⟨e, _⟩ <;> simp [e]) []
      simp only [List.length_nil] at this ⊢; omega
  | block x h h' hl ho' =>
    rw [ho', h']
    have := wl_le [Obs.blocks x] (by simp) (wl (r.tr i)); omega
  | free x h h' hl ho' =>
    rw [ho', h, h']
    simp only [List.foldl_cons, List.foldl_nil, reduceCtorEq, if_true, if_false]
    cases (liveList (r.st i).c (r.st i).q).head? <;> simp only [wlStep, List.length_cons] <;> omega

theorem tokens_mono (r : Run k) (hu : r.Untimed) {N : Nat} (ho : ∀ i, N ≤ i → ¬ r.Overtaken i) {i : Nat} (hi : N ≤ i) :
    ∀ d, r.tokens (i + d) ≤ max (r.tokens i) 1
  | 0 => by simp only [Nat.add_zero]; omega
  | d + 1 => by
    have h1 := r.tokens_mono hu ho hi d
    have h2 := r.tokens_step hu (i + d) (ho _ (by omega))
    rw [← Nat.add_assoc]; omega

/-- A fiber that can make a step, and can as long as it has not made it, makes it. -/
theorem leads (r : Run k) (hf : r.Fair) {f : Fid} {P : Nat → Prop} {i : Nat} (h0 : P i)
    (hP : ∀ j, i ≤ j → P j → r.ev j ≠ .run f → P (j + 1)) (hen : ∀ j, P j → step k (r.st j) (.run f) ≠ none) :
    ∃ j, i ≤ j ∧ P j ∧ r.ev j = .run f := by
  refine Classical.byContradiction fun hn => ?_
  have hall : ∀ d, P (i + d) := by
    intro d
    induction d with
    | zero => exact h0
    | succ d ih => exact hP (i + d) (Nat.le_add_right _ _) ih (fun he => hn ⟨i + d, by omega, ih, he⟩)
  obtain ⟨j, hj, h | h⟩ := hf f i
  · exact hn ⟨j, hj, by have := hall (j - i); rwa [Nat.add_sub_cancel' hj] at this, h⟩
  · have := hall (j - i); rw [Nat.add_sub_cancel' hj] at this; exact hen j this h

theorem noted_stays (r : Run k) {f : Fid} {j : Nat} (h : f ∈ wl (r.tr j)) (he : r.ev j ≠ .run f) : f ∈ wl (r.tr (j + 1)) := by
  simp only [tr, wl_append]
  exact wl_mem (obs_other (r.next j) he) h

/-- From the top of the loop in `lock()` a fiber makes its attempt. -/
theorem attempts (r : Run k) (hf : r.Fair) {f : Fid} {i : Nat} (hp : (r.st i).pc f = .lockEntry) :
    ∃ j, i ≤ j ∧ (r.st j).pc f = .lockEntry ∧ r.ev j = .run f ∧ (f ∈ wl (r.tr i) → f ∈ wl (r.tr j)) := by
  obtain ⟨j, hj, ⟨h1, h2⟩, h3⟩ := r.leads hf (f := f) (P := fun j => (r.st j).pc f = .lockEntry ∧ (f ∈ wl (r.tr i) → f ∈ wl (r.tr j)))
    (i := i) ⟨hp, id⟩
    (fun j _ h he => ⟨by rw [pc_other (r.next j) he (by simp [h.1])]; exact h.1, fun hm => r.noted_stays (h.2 hm) he⟩)
    (fun j h => by simp only [step, run, h.1]; split <;> simp)
  exact ⟨j, hj, h1, h3, h2⟩

theorem ready_stays {k : Kind} {s s' : State} {o : List Obs} {e : Event} {f : Fid} (hs : step k s e = some (s', o))
    (he : e ≠ .run f) (hr : s.c.ready f = true) : s'.c.ready f = true := by
  cases e with
  | run g =>
    have hg : f ≠ g := by rintro rfl; exact he rfl
    simp only [step, run] at hs
    split at hs <;> (try split at hs) <;> (try split at hs) <;> simp only [Option.some.injEq, Prod.mk.injEq, reduceCtorEq] at hs <;>
      obtain ⟨rfl, rfl⟩ := hs <;> (try simp [hg, hr, consumeReady, enqueue, createWaker]) <;> first | done | exact hr | exact notifyOne_ready_mono hr
  | call g op =>
    simp only [step] at hs
    split at hs <;> simp only [Option.some.injEq, Prod.mk.injEq, reduceCtorEq] at hs
    obtain ⟨rfl, rfl⟩ := hs; exact hr
  | timer g =>
    simp only [step] at hs
    split at hs <;> (try split at hs) <;> simp only [Option.some.injEq, Prod.mk.injEq, reduceCtorEq] at hs
    obtain ⟨rfl, rfl⟩ := hs
    simp only [wake]; split <;> simp [upd_apply, hr]
  | tick n => simp only [step, Option.some.injEq, Prod.mk.injEq] at hs; obtain ⟨rfl, rfl⟩ := hs; exact hr
  | elsewhere g n =>
    simp only [step] at hs
    split at hs <;> simp only [Option.some.injEq, Prod.mk.injEq, reduceCtorEq] at hs
    obtain ⟨rfl, rfl⟩ := hs; exact hr

/-- A scheduled fiber goes back to the top of the loop. -/
theorem resumes (r : Run k) (hf : r.Fair) {f : Fid} {i ep : Nat} (hp : (r.st i).pc f = .lockWait ep) (hr : (r.st i).c.ready f = true) :
    ∃ j, i ≤ j ∧ (r.st j).pc f = .lockEntry ∧ (f ∈ wl (r.tr i) → f ∈ wl (r.tr j)) := by
  obtain ⟨j, hj, ⟨h1, h2, h3⟩, h4⟩ := r.leads hf (f := f)
    (P := fun j => (r.st j).pc f = .lockWait ep ∧ (r.st j).c.ready f = true ∧ (f ∈ wl (r.tr i) → f ∈ wl (r.tr j)))
    (i := i) ⟨hp, hr, id⟩
    (fun j _ h he => ⟨by rw [pc_other (r.next j) he (by simp [h.1])]; exact h.1, ready_stays (r.next j) he h.2.1,
      fun hm => r.noted_stays (h.2.2 hm) he⟩)
    (fun j h => by simp [step, run, h.1, h.2.1])
  have hn := r.next j
  rw [h4] at hn
  obtain ⟨ho, hp'⟩ := run_lockWait hn h1
  refine ⟨j + 1, by omega, hp', fun hm => ?_⟩
  simp only [tr, wl_append, ho]; exact h3 hm

/-- A fiber that is on its way makes its attempt. -/
theorem noted_attempts (r : Run k) (hf : r.Fair) (hu : r.Untimed) {f : Fid} {i : Nat} (hm : f ∈ wl (r.tr i)) :
    ∃ j, i ≤ j ∧ (r.st j).pc f = .lockEntry ∧ r.ev j = .run f ∧ f ∈ wl (r.tr j) := by
  have hw := (reach_winv (r.reach i)).way f ((notes_iff _ _).2 hm)
  have hx := r.until_none hu i f
  have : (r.st i).pc f = .lockEntry ∨ ∃ ep, (r.st i).pc f = .lockWait ep ∧ (r.st i).c.ready f = true := by
    rcases hw with h | h | ⟨d, h⟩ | ⟨d, h⟩ | ⟨ep, d, h, _⟩ | ⟨ep, d, h⟩
    · exact .inl h
    · exact .inr h
    all_goals simp [h, isUntil] at hx
  rcases this with h | ⟨ep, h, h2⟩
  · obtain ⟨j, a, b, c, d⟩ := r.attempts hf h
    exact ⟨j, a, b, c, d hm⟩
  · obtain ⟨j, a, b, c⟩ := r.resumes hf h h2
    obtain ⟨j', a', b', c', d'⟩ := r.attempts hf b
    exact ⟨j', by omega, b', c', d' (c hm)⟩

/-- A mutex that is free while somebody waits is taken. -/
theorem gets_taken (r : Run k) (hf : r.Fair) (hu : r.Untimed) {i : Nat} (hl : liveList (r.st i).c (r.st i).q ≠ []) :
    ∃ j, i ≤ j ∧ (r.st j).m.owner ≠ none := by
  by_cases h0 : (r.st i).m.owner = none
  · obtain ⟨g, hg⟩ := (reach_winv (r.reach i)).served (r.noSwallow hu i) h0 hl
    obtain ⟨j, a, b, c, d⟩ := r.noted_attempts hf hu ((notes_iff _ _).1 hg)
    by_cases h1 : (r.st j).m.owner = none
    · have hn := r.next j
      rw [c] at hn
      rcases run_lockEntry hn b with ⟨_, h⟩ | ⟨e, h⟩ | ⟨_, h, _⟩
      · exact ⟨j + 1, by omega, by simp [h]⟩
      · simp only [step, run, b] at hn
        rw [lockCS_eq] at hn
        simp only [h1, reduceCtorEq, if_true, if_false] at hn
        simp only [Option.some.injEq, Prod.mk.injEq] at hn
        rw [← hn.2] at h; simp at h
      · exact absurd h1 h
    · exact ⟨j, a, h1⟩
  · exact ⟨i, by omega, h0⟩

/-- An owned mutex becomes free. -/
theorem gets_free (r : Run k) (hr : r.Releases) (hu : r.Untimed) {i : Nat} {x : Fid} (h : (r.st i).m.owner = some x) :
    ∃ j, i ≤ j ∧ (r.st j).m.owner = some x ∧ (r.st (j + 1)).m.owner = none := by
  refine Classical.byContradiction fun hn => ?_
  have hall : ∀ d, (r.st (i + d)).m.owner = some x := by
    intro d
    induction d with
    | zero => exact h
    | succ d ih =>
      have hk := r.kind hu (i + d)
      rw [← Nat.add_assoc]
      cases hk with
      | keep h' => rw [h']; exact ih
      | take y h' => rw [ih] at h'; cases h'
      | block y h' h'' => rw [h'']; exact ih
      | free y h' h'' => exact absurd ⟨i + d, by omega, ih, h''⟩ hn
  obtain ⟨j, hj, h'⟩ := hr i x h
  have := hall (j - i)
  rw [Nat.add_sub_cancel' (by omega)] at this
  exact h' this

/-- `f` waits, with at most `p` fibers before it. -/
def Pos (r : Run k) (f : Fid) (j p : Nat) : Prop := ∃ l1 l2, liveList (r.st j).c (r.st j).q = l1 ++ f :: l2 ∧ l1.length ≤ p

theorem pos_free (r : Run k) (hu : r.Untimed) {f : Fid} {j p : Nat} (h : r.Pos f j p) (ho : (r.st j).m.owner ≠ none)
    (hn : (r.st (j + 1)).m.owner = none) : f ∈ wl (r.tr (j + 1)) ∨ ∃ p', p' < p ∧ r.Pos f (j + 1) p' := by
  obtain ⟨l1, l2, hl, hp⟩ := h
  have hk := r.kind hu j
  cases hk with
  | keep h' => rw [hn] at h'; exact absurd h'.symm ho
  | take y h' => exact absurd h' ho
  | block y h' h'' => rw [hn] at h''; exact absurd h''.symm ho
  | free y h' h'' hl' ho' =>
    cases l1 with
    | nil =>
      left
      simp only [tr, wl_append, ho', hl]; simp [wlStep]
    | cons a l1 =>
      right
      refine ⟨l1.length, by simp at hp; omega, l1, l2, ?_, Nat.le_refl _⟩
      rw [hl', hl]; rfl

theorem pos_step (r : Run k) (hu : r.Untimed) {f : Fid} {j p : Nat} (h : r.Pos f j p) :
    f ∈ wl (r.tr (j + 1)) ∨ r.Pos f (j + 1) p := by
  have hk := r.kind hu j
  cases hk with
  | keep h' hl' => right; obtain ⟨l1, l2, hl, hp⟩ := h; exact ⟨l1, l2, by rw [hl', hl], hp⟩
  | take y h' h'' hl' => right; obtain ⟨l1, l2, hl, hp⟩ := h; exact ⟨l1, l2, by rw [hl', hl], hp⟩
  | block y h' h'' hl' => right; obtain ⟨l1, l2, hl, hp⟩ := h; exact ⟨l1, l2 ++ [y], by rw [hl', hl]; simp, hp⟩
  | free y h' h'' hl' ho' =>
    rcases r.pos_free hu h (by simp [h']) h'' with h | ⟨p', hp, l1, l2, hl, hle⟩
    · exact .inl h
    · exact .inr ⟨l1, l2, hl, by omega⟩

theorem pos_steps (r : Run k) (hu : r.Untimed) {f : Fid} {j p : Nat} (h : r.Pos f j p) :
    ∀ d, (∃ j', j ≤ j' ∧ f ∈ wl (r.tr j')) ∨ r.Pos f (j + d) p
  | 0 => .inr h
  | d + 1 => by
    rcases r.pos_steps hu h d with h' | h'
    · exact .inl h'
    · rcases r.pos_step hu h' with h'' | h''
      · exact .inl ⟨_, by omega, h''⟩
      · exact .inr h''

/-- Who waits is scheduled by an `unlock()` at last. -/
theorem gets_woken (r : Run k) (hf : r.Fair) (hr : r.Releases) (hu : r.Untimed) {f : Fid} :
    ∀ p j, r.Pos f j p → ∃ j', j ≤ j' ∧ f ∈ wl (r.tr j') := by
  intro p
  induction p using Nat.strongRecOn with
  | ind p ih =>
    intro j h
    have hne : liveList (r.st j).c (r.st j).q ≠ [] := by obtain ⟨l1, l2, hl, _⟩ := h; simp [hl]
    obtain ⟨j1, h1, ho1⟩ := r.gets_taken hf hu hne
    obtain ⟨x, hx⟩ := Option.ne_none_iff_exists'.1 ho1
    obtain ⟨j2, h2, ho2, hn2⟩ := r.gets_free hr hu hx
    rcases r.pos_steps hu h (j2 - j) with h' | h'
    · exact h'
    · rw [Nat.add_sub_cancel' (by omega)] at h'
      rcases r.pos_free hu h' (by simp [ho2]) hn2 with h'' | ⟨p', hp, h''⟩
      · exact ⟨_, by omega, h''⟩
      · obtain ⟨j3, h3, h3'⟩ := ih p' hp _ h''
        exact ⟨j3, by omega, h3'⟩

theorem pos_of_mem (r : Run k) {f : Fid} {j : Nat} (h : f ∈ liveList (r.st j).c (r.st j).q) : ∃ p, r.Pos f j p := by
  obtain ⟨l1, l2, hl⟩ := List.append_of_mem h
  exact ⟨l1.length, l1, l2, hl, Nat.le_refl _⟩

/-- **Every call of `lock()` ends**, if after some time nobody is overtaken. -/
theorem lock_ends (r : Run k) (hf : r.Fair) (hr : r.Releases) (hu : r.Untimed) {N : Nat} (ho : ∀ i, N ≤ i → ¬ r.Overtaken i)
    {f : Fid} {i : Nat} (hc : Obs.called f .lock ∈ r.ob i) :
    ∃ j, i < j ∧ (Obs.lockRet f ∈ r.ob j ∨ ∃ e, Obs.threw f .lock e ∈ r.ob j) := by
  refine Classical.byContradiction fun hn => ?_
  have hl : ∀ j, i < j → Obs.lockRet f ∉ r.ob j := fun j hj h => hn ⟨j, hj, .inl h⟩
  have ht : ∀ j, i < j → ∀ e, Obs.threw f .lock e ∉ r.ob j := fun j hj e h => hn ⟨j, hj, .inr ⟨e, h⟩⟩
  have h1 : (r.st (i + 1)).pc f = .lockEntry := by
    have hs := r.next i
    cases he : r.ev i with
    | call g op =>
      rw [he] at hs
      simp only [step] at hs
      split at hs <;> simp only [Option.some.injEq, Prod.mk.injEq, reduceCtorEq] at hs
      obtain ⟨hs1, hs2⟩ := hs
      rw [← hs2] at hc
      simp only [List.mem_singleton, Obs.called.injEq] at hc
      obtain ⟨rfl, rfl⟩ := hc
      rw [← hs1]; simp [entry]
    | run g => rw [he] at hs; simp only [step, run] at hs; grind
    | _ => rw [he] at hs; simp only [step] at hs; grind
  have hin : ∀ d, ((r.st (i + 1 + d)).pc f = .lockEntry ∨ ∃ ep, (r.st (i + 1 + d)).pc f = .lockWait ep) := by
    intro d
    induction d with
    | zero => exact .inl h1
    | succ d ih => exact stays (r.next (i + 1 + d)) ih (hl (i + 1 + d) (by omega)) (ht (i + 1 + d) (by omega))
  -- an attempt fails
  have hblocks : ∀ j, i < j → (r.st j).pc f = .lockEntry → r.ev j = .run f →
      r.ob j = [.blocks f] ∧ (r.st (j + 1)).m.owner ≠ none ∧ ∃ ep, (r.st (j + 1)).pc f = .lockWait ep := by
    intro j hj hp he
    have hs := r.next j
    rw [he] at hs
    rcases run_lockEntry hs hp with ⟨h, _⟩ | ⟨e, h⟩ | ⟨h, h', h'', h3⟩
    · exact absurd (by simp [h]) (hl j hj)
    · exact absurd (by simp [h]) (ht j hj e)
    · exact ⟨h, by rw [h'']; exact h', h3⟩
  -- the fiber comes to wait, and is scheduled
  have hnoted : ∀ j, i < j → ∃ j', j ≤ j' ∧ f ∈ wl (r.tr j') := by
    have hentry : ∀ j, i < j → (r.st j).pc f = .lockEntry → ∃ j', j ≤ j' ∧ f ∈ wl (r.tr j') := by
      intro j hj hp
      obtain ⟨j1, a, b, c, _⟩ := r.attempts hf hp
      obtain ⟨hb, _, _⟩ := hblocks j1 (by omega) b c
      have hk := r.kind hu j1
      have hmem : f ∈ liveList (r.st (j1 + 1)).c (r.st (j1 + 1)).q := by
        cases hk with
        | keep _ _ _ h => exact absurd (by simp [hb]) (h f)
        | take y _ _ _ h => rcases h with ⟨h, _⟩ | ⟨h, _⟩ <;> simp [hb] at h
        | block y _ _ h h' => rw [hb] at h'; simp at h'; subst h'; rw [h]; simp
        | free y _ _ _ h => rw [hb] at h; simp at h
      obtain ⟨p, hp⟩ := r.pos_of_mem hmem
      obtain ⟨j', h1, h2⟩ := r.gets_woken hf hr hu p _ hp
      exact ⟨j', by omega, h2⟩
    intro j hj
    have hi := hin (j - (i + 1))
    rw [Nat.add_sub_cancel' (by omega)] at hi
    rcases hi with hp | ⟨ep, hp⟩
    · exact hentry j hj hp
    · have inv := reach_inv (r.reach j)
      rcases inv.qi.bound f ⟨ep, none⟩ (by simp [hp, regOf]) with h | h
      · have hmem : f ∈ liveList (r.st j).c (r.st j).q := (mem_liveList inv.qi f).2 ⟨_, by simp [hp, regOf], h⟩
        obtain ⟨p, hp⟩ := r.pos_of_mem hmem
        exact r.gets_woken hf hr hu p _ hp
      · obtain ⟨j1, a, b, _⟩ := r.resumes hf hp (inv.lw f ep hp h)
        obtain ⟨j', c, d⟩ := hentry j1 (by omega) b
        exact ⟨j', by omega, d⟩
  have drop : ∀ j, i < j → N ≤ j → ∃ j', j < j' ∧ r.tokens j' < r.tokens j := by
    intro j hj hN
    obtain ⟨j1, a, b⟩ := hnoted j hj
    obtain ⟨j2, c, d, e, g⟩ := r.noted_attempts hf hu b
    obtain ⟨hb, hown, _⟩ := hblocks j2 (by omega) d e
    have hm := r.tokens_mono hu ho hN (j2 - j)
    rw [Nat.add_sub_cancel' (by omega)] at hm
    have h2 : r.tokens (j2 + 1) < r.tokens j2 := by
      have hlt := filter_lt g
      have hk := r.kind hu j2
      unfold tokens
      cases hk with
      | keep _ _ _ h => exact absurd (by simp [hb]) (h f)
      | take y _ _ _ h => rcases h with ⟨h, _⟩ | ⟨h, _⟩ <;> simp [hb] at h
      | block y _ h _ h' =>
        rw [h]
        simp only [tr, wl_append, hb, List.foldl_cons, List.foldl_nil, wlStep]; omega
      | free y _ _ _ h => rw [hb] at h; simp at h
    have h3 : 1 ≤ r.tokens (j2 + 1) := by unfold tokens; simp only [hown, if_false]; omega
    exact ⟨j2 + 1, by omega, by omega⟩
  have main : ∀ m j, i < j → N ≤ j → r.tokens j ≤ m → False := by
    intro m
    induction m with
    | zero => intro j hj hN h0; obtain ⟨j', _, h⟩ := drop j hj hN; omega
    | succ m ih => intro j hj hN h0; obtain ⟨j', h1, h⟩ := drop j hj hN; exact ih j' (by omega) (by omega) (by omega)
  exact main _ (max (i + 1) N) (by omega) (by omega) (Nat.le_refl _)

/-! ## The order -/

theorem tokens_le_one (r : Run k) (hu : r.Untimed) (ho : ∀ i, ¬ r.Overtaken i) (i : Nat) : r.tokens i ≤ 1 := by
  have := r.tokens_mono hu (N := 0) (i := 0) (fun i _ => ho i) (Nat.le_refl _) i
  have h0 : r.tokens 0 = 0 := by simp [tokens, tr, wl, r.start, init]
  rw [h0] at this; simpa using this

/-- `f` is on its way; or it waits, and none of the fibers `G` is on its way or waits before it. -/
def Ahead (r : Run k) (f : Fid) (G : Fid → Prop) (j : Nat) : Prop :=
  f ∈ wl (r.tr j) ∨ ∃ l1 l2, liveList (r.st j).c (r.st j).q = l1 ++ f :: l2 ∧ ∀ g, G g → g ∉ wl (r.tr j) ∧ g ∉ l1

theorem ahead_not_taken (r : Run k) (hu : r.Untimed) (ho : ∀ i, ¬ r.Overtaken i) {f g : Fid} {G : Fid → Prop} {j : Nat} (hG : ¬ G f)
    (h : r.Ahead f G j) (hg : G g) : ¬ ((r.st j).m.owner = none ∧ (r.st (j + 1)).m.owner = some g) := by
  rintro ⟨h1, h2⟩
  have key : ∀ x, x ∈ wl (r.tr j) → g ∈ wl (r.tr j) := by
    intro x hx
    refine Classical.byContradiction fun hn => ho j ⟨g, x, h1, h2, ?_, (notes_iff _ _).2 hx⟩
    cases hng : notes (r.tr j) g with
    | false => rfl
    | true => exact absurd ((notes_iff _ _).1 hng) hn
  rcases h with h | ⟨l1, l2, hl, hn⟩
  · have hgm := key f h
    have := r.tokens_le_one hu ho j
    unfold tokens at this
    have hlen : (wl (r.tr j)).length ≤ 1 := by omega
    match hw : wl (r.tr j) with
    | [] => simp [hw] at h
    | [a] => simp [hw] at h hgm; subst h; subst hgm; exact hG hg
    | a :: b :: l => simp [hw] at hlen
  · obtain ⟨x, hx⟩ := (reach_winv (r.reach j)).served (r.noSwallow hu j) h1 (by simp [hl])
    exact (hn g hg).1 (key x ((notes_iff _ _).1 hx))

theorem wl_new {o : List Obs} {g : Fid} (hu : ∀ f, Obs.unlockRet f (some g) ∉ o) : ∀ {w : List Fid}, g ∉ w → g ∉ o.foldl wlStep w := by
  induction o with
  | nil => intro w h; exact h
  | cons x xs ih =>
    intro w hw
    simp only [List.foldl_cons]
    refine ih (fun f h => hu f (by simp [h])) ?_
    have := fun f => hu f
    unfold wlStep
    split <;> simp_all

theorem ahead_step (r : Run k) (hu : r.Untimed) (ho : ∀ i, ¬ r.Overtaken i) {f : Fid} {G : Fid → Prop} {j : Nat}
    (h : r.Ahead f G j) : Obs.lockRet f ∈ r.ob j ∨ r.Ahead f G (j + 1) := by
  rcases h with h | ⟨l1, l2, hl, hn⟩
  · by_cases he : r.ev j = .run f
    · have hlen := r.tokens_le_one hu ho j
      have h1 : 1 ≤ (wl (r.tr j)).length := List.length_pos_of_mem h
      have hown : (r.st j).m.owner = none := by
        unfold tokens at hlen
        by_cases hx : (r.st j).m.owner = none
        · exact hx
        · rw [if_neg hx] at hlen; omega
      have hs := r.next j
      rw [he] at hs
      have hw := (reach_winv (r.reach j)).way f ((notes_iff _ _).2 h)
      have hx := r.until_none hu j f
      rcases hw with hp | ⟨ep, hp, _⟩ | ⟨d, hp⟩ | ⟨d, hp⟩ | ⟨ep, d, hp, _⟩ | ⟨ep, d, hp⟩
      · rcases run_lockEntry hs hp with ⟨h, _⟩ | ⟨e, h⟩ | ⟨_, h', _⟩
        · left; simp [h]
        · simp only [step, run, hp] at hs
          rw [lockCS_eq] at hs
          simp only [hown, reduceCtorEq, if_true, if_false] at hs
          simp only [Option.some.injEq, Prod.mk.injEq] at hs
          rw [← hs.2] at h; simp at h
        · exact absurd hown h'
      · right; left
        simp only [tr, wl_append, (run_lockWait hs hp).1]; exact h
      all_goals simp [hp, isUntil] at hx
    · exact .inr (.inl (r.noted_stays h he))
  · right
    have hk := r.kind hu j
    cases hk with
    | keep h' hl' hun _ =>
      right
      refine ⟨l1, l2, by rw [hl', hl], fun g hg => ⟨?_, (hn g hg).2⟩⟩
      simp only [tr, wl_append]; exact wl_new (fun f => hun f g) (hn g hg).1
    | take y h' h'' hl' ho' =>
      right
      refine ⟨l1, l2, by rw [hl', hl], fun g hg => ⟨?_, (hn g hg).2⟩⟩
      simp only [tr, wl_append]; refine wl_new (fun f => ?_) (hn g hg).1
      rcases ho' with ⟨h, _⟩ | ⟨h, _⟩ <;> simp [h]
    | block y h' h'' hl' ho' =>
      right
      refine ⟨l1, l2 ++ [y], by rw [hl', hl]; simp, fun g hg => ⟨?_, (hn g hg).2⟩⟩
      simp only [tr, wl_append]; refine wl_new (fun f => ?_) (hn g hg).1
      simp [ho']
    | free y h' h'' hl' ho' =>
      cases l1 with
      | nil => left; simp only [tr, wl_append, ho', hl]; simp [wlStep]
      | cons a l1 =>
        right
        refine ⟨l1, l2, by rw [hl', hl]; rfl, fun g hg => ⟨?_, fun hm => (hn g hg).2 (by simp [hm])⟩⟩
        simp only [tr, wl_append]; refine wl_new (fun f => ?_) (hn g hg).1
        have := (hn g hg).2
        rw [ho', hl]; simp at this ⊢; exact fun _ h => this.1 h

theorem ahead_steps (r : Run k) (hu : r.Untimed) (ho : ∀ i, ¬ r.Overtaken i) {f : Fid} {G : Fid → Prop} {j : Nat}
    (h : r.Ahead f G j) : ∀ d, (∃ n, j ≤ n ∧ n < j + d ∧ Obs.lockRet f ∈ r.ob n) ∨ r.Ahead f G (j + d)
  | 0 => .inr h
  | d + 1 => by
    rcases r.ahead_steps hu ho h d with ⟨n, a, b, c⟩ | h'
    · exact .inl ⟨n, a, by omega, c⟩
    · rcases r.ahead_step hu ho h' with h'' | h''
      · exact .inl ⟨j + d, by omega, by omega, h''⟩
      · exact .inr h''

/-- **First come, first served**, if nobody is overtaken. -/
theorem in_order (r : Run k) (hu : r.Untimed) (ho : ∀ i, ¬ r.Overtaken i) {f g : Fid} {op : Op} {i j m : Nat} (hfg : g ≠ f)
    (hb : Obs.blocks f ∈ r.ob i) (hij : i < j) (hc : Obs.called g op ∈ r.ob j) (hjm : j < m)
    (h1 : (r.st m).m.owner = none) (h2 : (r.st (m + 1)).m.owner = some g) : ∃ n, i < n ∧ n < m ∧ Obs.lockRet f ∈ r.ob n := by
  have ha : r.Ahead f (fun _ => False) (i + 1) := by
    have hk := r.kind hu i
    cases hk with
    | keep _ _ _ h => exact absurd hb (h f)
    | take y _ _ _ h => rcases h with ⟨h, _⟩ | ⟨h, _⟩ <;> simp [h] at hb
    | block y _ _ h h' => rw [h'] at hb; simp at hb; subst hb; exact .inr ⟨_, [], h, fun _ h => h.elim⟩
    | free y _ _ _ h => rw [h] at hb; simp at hb
  rcases r.ahead_steps hu ho ha (j - i) with ⟨n, a, b, c⟩ | h
  · exact ⟨n, by omega, by omega, c⟩
  · have hidle : (r.st j).pc g = .idle ∧ r.ob j = [.called g op] ∧ (r.st (j + 1)).c = (r.st j).c ∧ (r.st (j + 1)).q = (r.st j).q := by
      have hs := r.next j
      cases he : r.ev j with
      | call x op' =>
        rw [he] at hs
        simp only [step] at hs
        split at hs <;> simp only [Option.some.injEq, Prod.mk.injEq, reduceCtorEq] at hs
        rename_i hx
        obtain ⟨hs1, hs2⟩ := hs
        rw [← hs2] at hc
        simp only [List.mem_singleton, Obs.called.injEq] at hc
        obtain ⟨rfl, rfl⟩ := hc
        exact ⟨hx.1, hs2.symm, by rw [← hs1], by rw [← hs1]⟩
      | run x => rw [he] at hs; simp only [step, run] at hs; grind
      | _ => rw [he] at hs; simp only [step] at hs; grind
    obtain ⟨hp, hob, hcc, hq⟩ := hidle
    have hng : g ∉ wl (r.tr (j + 1)) := by
      simp only [tr, wl_append, hob]
      refine wl_new (by simp) fun hm => ?_
      have := (reach_winv (r.reach j)).way g ((notes_iff _ _).2 hm)
      simp [OnItsWay, hp] at this
    have hlg : g ∉ liveList (r.st (j + 1)).c (r.st (j + 1)).q := by
      rw [hcc, hq]; exact not_waiting (reach_inv (r.reach j)) (by simp [hp, regOf])
    have ha' : r.Ahead f (fun x => x = g) (j + 1) := by
      have h' : r.Ahead f (fun _ => False) (j + 1) := by
        rw [show i + 1 + (j - i) = j + 1 by omega] at h; exact h
      rcases h' with h' | ⟨l1, l2, hl, _⟩
      · exact .inl h'
      · refine .inr ⟨l1, l2, hl, ?_⟩
        rintro x rfl
        exact ⟨hng, fun hm => hlg (by rw [hl]; simp [hm])⟩
    rcases r.ahead_steps hu ho ha' (m - (j + 1)) with ⟨n, a, b, c⟩ | h'
    · exact ⟨n, by omega, by omega, c⟩
    · rw [Nat.add_sub_cancel' (by omega)] at h'
      exact absurd ⟨h1, h2⟩ (r.ahead_not_taken hu ho (fun e => hfg e.symm) h' rfl)

end Run

end Verif.Mutex
