import Verif.WeakMutexInv

/-!
# The mutexes under weak memory: the invariant holds after every step
-/

namespace Verif.WeakMutex

open Weak

theorem place_false {recur : Bool} {c c' n : Nat} {p : Pc} (h : Place recur false c n p) : Place recur false c' n p := by
  unfold Place at h ⊢
  split at h <;> simp_all

theorem tries_want (k : Call) : (Pc.want k).tries = decide (k = .tryLock) := by cases k <;> rfl
theorem tries_dec (k : Call) : (Pc.dec k).tries = decide (k = .tryLock) := by cases k <;> rfl
theorem tries_own (k : Call) : (Pc.own k).tries = decide (k = .tryLock) := by cases k <;> rfl
theorem tries_push (k : Call) : (Pc.push k).tries = decide (k = .tryLock) := by cases k <;> rfl
theorem tries_slept (k : Call) : (Pc.rel (.slept k)).tries = decide (k = .tryLock) := by cases k <;> rfl
theorem tries_sleeping (k : Call) : (Pc.sleeping k).tries = decide (k = .tryLock) := by cases k <;> rfl
theorem tries_cnt (k : Call) (b : Bool) : (Pc.cnt k b).tries = decide (k = .tryLock) := by cases k <;> rfl
theorem tries_gotIt (k : Call) : (Pc.rel (gotIt k)).tries = decide (k = .tryLock) := by cases k <;> rfl

/-- A fiber at such a place has the spinlock. -/
theorem nobody_inside {p : Pc} (h : p.nobody = true) : p.inside = true := by
  cases p <;> simp_all [Pc.nobody, Pc.inside]

theorem place_dec {recur : Bool} {owner : Option Fid} {f : Fid} {c n : Nat} {k : Call}
    (h : Place recur (decide (owner = some f)) c n (.dec k)) :
    Place recur (decide (owner = some f)) c n (decide_ recur owner f k) := by
  simp only [Place] at h
  obtain ⟨h1, h2⟩ := h
  by_cases ho : owner = some f
  · have hn : 0 < n := by simpa [ho] using h1
    cases recur <;> simp [ho, hn] at h2 <;> cases k <;> simp [decide_, ho, Place, hn, h2]
  · have hn : n = 0 := by simpa [ho] using h1
    cases k <;> simp only [decide_, ho, if_false, false_and] <;> (try split) <;> simp [Place, hn]

theorem inside_dec (recur : Bool) (owner : Option Fid) (f : Fid) (k : Call) : (decide_ recur owner f k).inside = true := by
  cases k <;> simp only [decide_] <;> (repeat' split) <;> rfl

theorem nobody_dec {recur : Bool} {owner : Option Fid} {f : Fid} {k : Call} (h : (decide_ recur owner f k).nobody = true) :
    owner = none := by
  revert h
  cases k <;> simp only [decide_] <;> (repeat' split) <;> first | (intro _; assumption) | (intro h; cases h; done)

theorem tries_decide {recur : Bool} {owner : Option Fid} {f : Fid} {k : Call} (h : k ≠ .tryLock) : (decide_ recur owner f k).tries = false := by
  cases k <;> first | exact absurd rfl h | (simp only [decide_]; (repeat' split) <;> rfl)

variable {q : Prop} {s s' : State} {f : Fid} {p : Pc} {n : Nat}

/-- Fiber `f` moves. -/
theorem Inv.move (hi : Inv q s) (f : Fid) (p : Pc) (n : Nat) (hrec : s'.recur = s.recur) (hpc : s'.pc = upd s.pc f p)
    (hheld : s'.held = upd s.held f n) (hlk : Lk (Prot q s'.owner) s'.mem (fun g => (upd s.pc f p g).inside = true))
    (hdat : ∀ g x, s'.owner = some g → isData x → s'.mem.last x ≤ s'.mem.cur g x)
    (ho : ∀ g, g ≠ f → s'.has g = s.has g) (hc : ∀ g, g ≠ f → s.has g = true → s'.count = s.count)
    (hpl : Place s.recur (s'.has f) s'.count n p) (hn : p.nobody = true → s'.owner = none)
    (hno : ∀ g, g ≠ f → (s.pc g).nobody = true → s'.owner = none) (hq : q → p.tries = false) : Inv q s' where
  lk := by rw [hpc]; exact hlk
  dat := hdat
  plc := by
    intro g
    rw [hrec, hpc, hheld]
    by_cases e : g = f
    · subst e; simpa only [upd_same] using hpl
    · simp only [upd_other _ _ e, ho g e]
      have h1 := hi.plc g
      cases h2 : s.has g with
      | false => rw [h2] at h1; exact place_false h1
      | true => rw [h2] at h1; rw [hc g e h2]; exact h1
  nob := by
    intro g hg
    rw [hpc] at hg
    by_cases e : g = f
    · subst e; simp only [upd_same] at hg; exact hn hg
    · simp only [upd_other _ _ e] at hg; exact hno g e hg
  qui := by
    intro h g
    rw [hpc]
    by_cases e : g = f
    · subst e; simpa only [upd_same] using hq h
    · simpa only [upd_other _ _ e] using hi.qui h g

/-- Fiber `f` moves without touching `owner_` and `count_`. -/
theorem Inv.go (hi : Inv q s) (f : Fid) (p : Pc) (n : Nat) (hrec : s'.recur = s.recur) (hpc : s'.pc = upd s.pc f p)
    (hheld : s'.held = upd s.held f n) (hlk : Lk (Prot q s.owner) s'.mem (fun g => (upd s.pc f p g).inside = true))
    (hdat : ∀ g x, s.owner = some g → isData x → s'.mem.last x ≤ s'.mem.cur g x) (ho : s'.owner = s.owner) (hc : s'.count = s.count)
    (hpl : Place s.recur (s.has f) s.count n p) (hn : p.nobody = true → s.owner = none) (hq : q → p.tries = false) : Inv q s' :=
  hi.move f p n hrec hpc hheld (by rw [ho]; exact hlk) (by rw [ho]; exact hdat) (fun g _ => by simp only [State.has, ho])
    (fun _ _ _ => hc) (by simp only [State.has, ho, hc]; exact hpl) (by rw [ho]; exact hn) (fun g _ => by rw [ho]; exact hi.nob g) hq

theorem upd_self {α : Type} (g : Fid → α) (f : Fid) : upd g f (g f) = g := by
  funext x; rw [upd_apply]; split <;> simp_all

/-- The spinlock is not concerned. -/
theorem inside_congr {h : Fid → Pc} (hp : p.inside = (h f).inside) (g : Fid) :
    (upd h f p g).inside = true ↔ (h g).inside = true := by
  rw [upd_apply]; split
  · rename_i e; subst e; rw [hp]
  · exact Iff.rfl

/-- An access by a fiber that has the spinlock: the memory. -/
theorem Inv.accMem (hi : Inv q s) (hf : (s.pc f).inside = true) (x : Nat) (hx : ¬ isData x) :
    Lk (Prot q s.owner) (touch s.mem f x).2 (fun g => (s.pc g).inside = true) ∧
    (q → x = OWNER ∨ x = QUEUE ∨ x = COUNT → (touch s.mem f x).1 = false) ∧
    (∀ g y, isData y → s.mem.last y ≤ s.mem.cur g y → (touch s.mem f x).2.last y ≤ (touch s.mem f x).2.cur g y) := by
  have ht : Touched s.mem f x (touch s.mem f x).1 (touch s.mem f x).2 := touch_spec rfl
  obtain ⟨h1, h2⟩ := hi.lk.touch ht hf
  refine ⟨h1, fun hq hx => h2 (.inl ⟨hq, hx⟩), ?_⟩
  intro g y hy hl
  have : y ≠ x := by rintro rfl; exact hx hy
  rw [ht.last, upd_other _ _ this]
  exact Nat.le_trans hl (mono_all ht.others ht.mono g y)

/-- Nobody else has the spinlock. -/
theorem Inv.alone (hi : Inv q s) (hf : (s.pc f).inside = true) (g : Fid) (hg : g ≠ f) : (s.pc g).nobody = false := by
  cases h : (s.pc g).nobody with
  | false => rfl
  | true => exact absurd (hi.lk.one g f (nobody_inside h) hf) hg

/-- What a fiber that has the spinlock does to `owner_` and `count_`. -/
theorem Inv.acc (hi : Inv q s) (hf : (s.pc f).inside = true) (x : Nat) (hx : ¬ isData x) (wr : Bool) (p : Pc) (o' : Option Fid) (c' : Nat)
    (hp : p.inside = true) (ho : ∀ g, g ≠ f → (o' = some g ↔ s.owner = some g)) (hc : ∀ g, g ≠ f → s.owner = some g → c' = s.count)
    (hpl : Place s.recur (decide (o' = some f)) c' (s.held f) p) (hn : p.nobody = true → o' = none) (hq : q → p.tries = false) :
    Inv q ({ s with owner := o', count := c' }.acc f x wr p).1 := by
  obtain ⟨h1, -, h3⟩ := hi.accMem hf x hx
  have ht : Touched s.mem f x (touch s.mem f x).1 (touch s.mem f x).2 := touch_spec rfl
  -- what the holder knows of the data
  have hd : ∀ y, isData y → s.owner = none ∨ s.owner = some f → s.mem.last y ≤ s.mem.cur f y := by
    intro y hy h
    rcases h with h | h
    · exact hi.lk.visH f y hf (.inr ⟨h, hy⟩)
    · exact hi.dat f y h hy
  refine hi.move f p (s.held f) rfl rfl (upd_self s.held f).symm ?_ ?_ ?_ ?_ hpl hn ?_ hq
  · refine Lk.congr ?_ (inside_congr (hp.trans hf.symm))
    refine Lk.more h1 hf ?_
    rintro y (hy | ⟨he, hy⟩)
    · exact .inl (.inl hy)
    · right
      refine h3 f y hy (hd y hy ?_)
      cases h : s.owner with
      | none => exact .inl rfl
      | some g =>
        right
        by_cases e : g = f
        · rw [e]
        · have h4 := (ho g e).2 h
          have h5 : o' = none := he
          rw [h5] at h4; cases h4
  · intro g y hg hy
    refine h3 g y hy ?_
    by_cases e : g = f
    · subst e
      refine hd y hy ?_
      cases h : s.owner with
      | none => exact .inl rfl
      | some g' =>
        right
        by_cases e : g' = g
        · rw [e]
        · have h4 := (ho g' e).2 h
          rw [h4] at hg; exact absurd (Option.some.inj hg) e
    · exact hi.dat g y ((ho g e).1 hg) hy
  · intro g hg; simp only [State.has, State.acc, ho g hg]
  · intro g hg h; simp only [State.has, decide_eq_true_eq] at h; exact hc g hg h
  · intro g hg h; rw [hi.alone hf g hg] at h; cases h

/-- The same, leaving them as they are. -/
theorem Inv.acc0 (hi : Inv q s) (hf : (s.pc f).inside = true) (x : Nat) (hx : ¬ isData x) (wr : Bool) (p : Pc)
    (hp : p.inside = true) (hpl : Place s.recur (s.has f) s.count (s.held f) p) (hn : p.nobody = true → s.owner = none)
    (hq : q → p.tries = false) : Inv q (s.acc f x wr p).1 :=
  hi.acc hf x hx wr p s.owner s.count hp (fun _ _ => Iff.rfl) (fun _ _ _ => rfl) hpl hn hq

theorem no_race (hi : Inv q s) (hf : (s.pc f).inside = true) (x : Nat) (hx : ¬ isData x) :
    (q → x = OWNER ∨ x = QUEUE ∨ x = COUNT → (touch s.mem f x).1 = false) := (hi.accMem hf x hx).2.1

/-- What an access shows: no race on the user's data, and, if nobody calls `try_lock()`, no race at all. -/
def Shows (q : Prop) (o : List Obs) : Prop := ∀ f x w, Obs.acc f x w true ∈ o → ¬ isData x ∧ ¬ q

theorem Shows.nil : Shows q [] := by simp [Shows]

theorem run_step (hi : Inv q s) {o : List Obs} (hs : step s (.run f) = some (s', o)) : Inv q s' ∧ Shows q o := by
  have nd : ¬ isData OWNER ∧ ¬ isData QUEUE ∧ ¬ isData COUNT := by decide
  have hpl := hi.plc f
  simp only [step] at hs
  -- an access under the spinlock
  have acc : ∀ {s1 : State} {x wr p}, s1.acc f x wr p = (s', o) → (s.pc f).inside = true → ¬ isData x → s1.mem = s.mem → Inv q (s1.acc f x wr p).1 →
      (x = OWNER ∨ x = QUEUE ∨ x = COUNT) → Inv q s' ∧ Shows q o := by
    intro s1 x wr p h2 hf hx hm h1 hx'
    have h3 := no_race hi hf x hx
    rw [← hm] at h3
    rw [h2] at h1
    refine ⟨h1, ?_⟩
    simp only [State.acc, Prod.mk.injEq] at h2
    obtain ⟨-, rfl⟩ := h2
    intro g y w hy
    simp only [List.mem_singleton, Obs.acc.injEq] at hy
    obtain ⟨-, rfl, -, hr⟩ := hy
    exact ⟨hx, fun hq => by rw [h3 hq hx'] at hr; cases hr⟩
  split at hs
  · -- reads `owner_`
    rename_i k hp
    have hf : (s.pc f).inside = true := by rw [hp]; rfl
    rw [hp] at hpl
    have hqui : q → k ≠ .tryLock := fun h => by have := hi.qui h f; rw [hp, tries_dec] at this; simpa using this
    refine acc (Option.some.inj hs) hf nd.1 rfl (hi.acc0 hf _ nd.1 _ _ ?_ ?_ ?_ ?_) (by simp)
    · exact inside_dec _ _ _ _
    · exact place_dec hpl
    · exact nobody_dec
    · exact fun h => tries_decide (hqui h)
  · -- `owner_ = active_ctx`
    rename_i k hp
    have hf : (s.pc f).inside = true := by rw [hp]; rfl
    have hn := hi.nob f (by rw [hp]; rfl)
    rw [hp] at hpl
    have hqui : q → k ≠ .tryLock := fun h => by have := hi.qui h f; rw [hp, tries_own] at this; simpa using this
    refine acc (Option.some.inj hs) hf nd.1 rfl (hi.acc hf _ nd.1 _ _ (some f) s.count ?_ ?_ ?_ ?_ ?_ ?_) (by simp)
    · split <;> rfl
    · intro g hg; rw [hn]; simp [Ne.symm hg]
    · simp
    · simp only [Place] at hpl
      split <;> cases k <;> simp_all [Place, gotIt]
    · split <;> cases k <;> simp [Pc.nobody, gotIt]
    · intro h; have := hqui h
      split
      · rw [tries_cnt]; simpa using this
      · rw [tries_gotIt]; simpa using this
  · -- `count_ = 1`, `++count_`
    rename_i k fresh hp
    have hf : (s.pc f).inside = true := by rw [hp]; rfl
    rw [hp] at hpl
    have hqui : q → k ≠ .tryLock := fun h => by have := hi.qui h f; rw [hp, tries_cnt] at this; simpa using this
    have hown : s.owner = some f := by cases fresh <;> simp_all [Place, State.has]
    refine acc (Option.some.inj hs) hf nd.2.2 rfl (hi.acc hf _ nd.2.2 _ _ s.owner _ ?_ ?_ ?_ ?_ ?_ ?_) (by simp)
    · rfl
    · simp
    · intro g hg h; rw [hown] at h; exact absurd (Option.some.inj h).symm hg
    · cases fresh <;> cases k <;> simp_all [Place, gotIt, State.has]
    · simp [Pc.nobody]
    · intro h; have := hqui h
      rw [tries_gotIt]; simpa using this
  · -- `--count_`
    rename_i hp
    have hf : (s.pc f).inside = true := by rw [hp]; rfl
    rw [hp] at hpl
    simp only [Place, State.has, decide_eq_true_eq] at hpl
    obtain ⟨h1, h2, h3, h4⟩ := hpl
    refine acc (Option.some.inj hs) hf nd.2.2 rfl (hi.acc hf _ nd.2.2 _ _ s.owner _ ?_ ?_ ?_ ?_ ?_ ?_) (by simp)
    · split <;> rfl
    · simp
    · intro g hg h; rw [h2] at h; exact absurd (Option.some.inj h).symm hg
    · split
      · simp only [Place]; simp [h2]; omega
      · simp only [Place, h1, h2, h3]; simp; omega
    · split <;> simp [Pc.nobody]
    · intro _; split <;> rfl
  · -- `owner_ = nullptr`
    rename_i hp
    have hf : (s.pc f).inside = true := by rw [hp]; rfl
    rw [hp] at hpl
    simp only [Place, State.has, decide_eq_true_eq] at hpl
    refine acc (Option.some.inj hs) hf nd.1 rfl (hi.acc hf _ nd.1 _ _ none s.count ?_ ?_ ?_ ?_ ?_ ?_) (by simp)
    · rfl
    · intro g hg; rw [hpl.1]; simp [Ne.symm hg]
    · simp
    · simp [Place, hpl.2]
    · simp
    · intro _; rfl
  · -- `notify_one()`
    rename_i hp
    have hf : (s.pc f).inside = true := by rw [hp]; rfl
    rw [hp] at hpl
    refine acc (Option.some.inj hs) hf nd.2.1 rfl (hi.acc0 hf _ nd.2.1 _ _ rfl ?_ (by simp [Pc.nobody]) (fun _ => rfl)) (by simp)
    simp only [Place] at hpl ⊢
    simp [hpl.1, hpl.2]
  · -- `push_back`
    rename_i k hp
    have hf : (s.pc f).inside = true := by rw [hp]; rfl
    rw [hp] at hpl
    have hqui : q → k ≠ .tryLock := fun h => by have := hi.qui h f; rw [hp, tries_push] at this; simpa using this
    refine acc (Option.some.inj hs) hf nd.2.1 rfl (hi.acc0 hf _ nd.2.1 _ _ rfl hpl (by simp [Pc.nobody]) ?_) (by simp)
    intro h; rw [tries_slept]; simpa using hqui h
  · -- `remove`
    rename_i hp
    have hf : (s.pc f).inside = true := by rw [hp]; rfl
    rw [hp] at hpl
    exact acc (Option.some.inj hs) hf nd.2.1 rfl (hi.acc0 hf _ nd.2.1 _ _ rfl hpl (by simp [Pc.nobody]) (fun _ => rfl)) (by simp)
  · -- `return active_ctx == owner_`
    rename_i hp
    have hnq : ¬ q := fun h => by have := hi.qui h f; rw [hp] at this; cases this
    have ht : Touched s.mem f OWNER (touch s.mem f OWNER).1 (touch s.mem f OWNER).2 := touch_spec rfl
    have hlk : Lk (Prot q s.owner) (touch s.mem f OWNER).2 (fun g => (upd s.pc f .out g).inside = true) := by
      refine (hi.lk.touchOther ht ?_).congr (inside_congr (by rw [hp]; rfl))
      rintro (h | h)
      · exact hnq h.1
      · exact nd.1 h.2
    have hdat : ∀ g x, s.owner = some g → isData x → (touch s.mem f OWNER).2.last x ≤ (touch s.mem f OWNER).2.cur g x := by
      intro g y hg hy
      have : y ≠ OWNER := by rintro rfl; exact nd.1 hy
      rw [ht.last, upd_other _ _ this]
      exact Nat.le_trans (hi.dat g y hg hy) (mono_all ht.others ht.mono g y)
    rw [hp] at hpl
    simp only [Place, State.has, decide_eq_true_eq, decide_eq_false_iff_not] at hpl
    (try dsimp only at hs)
    split at hs <;> simp only [Option.some.injEq, Prod.mk.injEq] at hs <;> obtain ⟨rfl, rfl⟩ := hs
    · rename_i ho
      refine ⟨hi.go f .out (s.held f + 1) rfl rfl rfl hlk hdat rfl rfl ?_ (by simp [Pc.nobody]) (fun _ => rfl), ?_⟩
      · simp only [Place, State.has, ho]
        simp [ho] at hpl; simpa using hpl
      · intro g y w hy
        simp only [State.acc, List.mem_append, List.mem_singleton, Obs.acc.injEq, reduceCtorEq, or_false] at hy
        obtain ⟨-, rfl, -, -⟩ := hy; exact ⟨nd.1, hnq⟩
    · rename_i ho
      refine ⟨hi.go f .out (s.held f) rfl rfl (upd_self s.held f).symm hlk hdat rfl rfl ?_ (by simp [Pc.nobody]) (fun _ => rfl), ?_⟩
      · simp only [Place, State.has, ho]
        simp [ho] at hpl; simp [hpl]
      · intro g y w hy
        simp only [State.acc, List.mem_append, List.mem_singleton, Obs.acc.injEq, reduceCtorEq, or_false] at hy
        obtain ⟨-, rfl, -, -⟩ := hy; exact ⟨nd.1, hnq⟩
  · cases hs

theorem inv_step (hi : Inv q s) {e : Event} {o : List Obs} (hq : q → ∀ f, Obs.called f .tryLock ∉ o) (hs : step s e = some (s', o)) :
    Inv q s' ∧ Shows q o := by
  have nd : ¬ isData OWNER ∧ ¬ isData QUEUE ∧ ¬ isData COUNT := by decide
  have dat' : ∀ {m : Mem}, m.last = s.mem.last → (∀ g y, s.mem.cur g y ≤ m.cur g y) → ∀ g x, s.owner = some g → isData x →
      m.last x ≤ m.cur g x := by
    intro m h1 h2 g x h3 h4; rw [h1]; exact Nat.le_trans (hi.dat g x h3 h4) (h2 g x)
  cases e with
  | call f k =>
    simp only [step] at hs
    split at hs <;> simp only [Option.some.injEq, Prod.mk.injEq, reduceCtorEq] at hs
    rename_i hp
    obtain ⟨rfl, rfl⟩ := hs
    refine ⟨hi.go f (.want k) (s.held f) rfl rfl (upd_self s.held f).symm (hi.lk.congr (inside_congr (by rw [hp]; rfl))) hi.dat rfl rfl ?_
      (by simp [Pc.nobody]) ?_, by simp [Shows]⟩
    · have := hi.plc f; rw [hp] at this; exact this
    · intro h; cases k <;> simp_all [Pc.tries]
  | spin f t =>
    simp only [step] at hs
    split at hs
    case h_3 => cases hs
    all_goals
      rename_i hp
      split at hs
      · cases hs
      rename_i v m hm
      obtain ⟨g, hg⟩ := rmw_spec hm
      have hmo := mono_all hg.others hg.mono
      have hpl := hi.plc f
      rw [hp] at hpl
      split at hs <;> simp only [Option.some.injEq, Prod.mk.injEq] at hs <;> obtain ⟨rfl, rfl⟩ := hs
      · rename_i hv
        obtain ⟨h1, h2⟩ := hi.lk.take hg hv (by simp)
        refine ⟨hi.go f _ (s.held f) rfl rfl (upd_self s.held f).symm ?_ (dat' hg.last hmo) rfl rfl hpl (by simp [Pc.nobody]) ?_, Shows.nil⟩
        · refine h2.congr ?_
          intro w
          rw [upd_apply]
          split
          · rename_i e; simp [e, Pc.inside]
          · rename_i e; exact ⟨fun h => absurd h (h1 w), fun h => absurd h e⟩
        · intro h; have := hi.qui h f; rw [hp] at this; first | exact this | (rw [tries_dec, ← tries_want]; exact this)
      · rename_i hv
        refine ⟨?_, Shows.nil⟩
        exact ⟨hi.lk.bump hg hv (by simp), dat' hg.last hmo, hi.plc, hi.nob, hi.qui⟩
  | run f => exact run_step hi hs
  | release f t =>
    have hpl := hi.plc f
    simp only [step] at hs
    split at hs
    case h_2 => cases hs
    rename_i r hp
    split at hs
    · cases hs
    rename_i m hm
    have hst := store_spec hm
    have hmo := mono_all hst.others hst.mono
    have hf : (s.pc f).inside = true := by rw [hp]; rfl
    have hlk := hi.lk.put hst hf
    have hno : ∀ g, g ≠ f → (s.pc g).inside = false := by
      intro g hg
      cases h : (s.pc g).inside with
      | false => rfl
      | true => exact absurd (hi.lk.one g f h hf) hg
    have hlk' : ∀ p : Pc, p.inside = false → Lk (Prot q s.owner) m (fun g => (upd s.pc f p g).inside = true) := by
      intro p hp'
      refine hlk.congr ?_
      intro g
      rw [upd_apply]
      split
      · simp [hp']
      · rename_i e; simp [hno g e]
    have hd := dat' hst.last hmo
    rw [hp] at hpl
    split at hs <;> simp only [Option.some.injEq, Prod.mk.injEq] at hs <;> obtain ⟨rfl, rfl⟩ := hs <;> refine ⟨?_, by simp [Shows]⟩
    · refine hi.go f .out _ rfl rfl rfl (hlk' _ rfl) hd rfl rfl ?_ (by simp [Pc.nobody]) (fun _ => rfl)
      simp only [Place] at hpl ⊢; simp_all
    · refine hi.go f .out _ rfl rfl rfl (hlk' _ rfl) hd rfl rfl ?_ (by simp [Pc.nobody]) (fun _ => rfl)
      simp only [Place] at hpl ⊢
      obtain ⟨h1, h2, h3⟩ := hpl
      refine ⟨by rw [h2]; congr 1; apply propext; omega, fun h => ?_⟩
      obtain ⟨h4, h5⟩ := h3 h
      simp [h4, h5]
    · exact hi.go f .out _ rfl rfl (upd_self s.held f).symm (hlk' _ rfl) hd rfl rfl hpl (by simp [Pc.nobody]) (fun _ => rfl)
    · exact hi.go f .out _ rfl rfl (upd_self s.held f).symm (hlk' _ rfl) hd rfl rfl hpl (by simp [Pc.nobody]) (fun _ => rfl)
    · exact hi.go f .look _ rfl rfl (upd_self s.held f).symm (hlk' _ rfl) hd rfl rfl hpl (by simp [Pc.nobody])
        (fun h => by have := hi.qui h f; rw [hp] at this; cases this)
    · exact hi.go f (.sleeping _) _ rfl rfl (upd_self s.held f).symm (hlk' _ rfl) hd rfl rfl hpl (by simp [Pc.nobody])
        (fun h => by have := hi.qui h f; rw [hp, tries_slept] at this; rw [tries_sleeping]; exact this)
  | resume f =>
    have hpl := hi.plc f
    simp only [step] at hs
    split at hs <;> simp only [Option.some.injEq, Prod.mk.injEq, reduceCtorEq] at hs
    rename_i k hp
    obtain ⟨rfl, rfl⟩ := hs
    rw [hp] at hpl
    exact ⟨hi.go f (.want k) _ rfl rfl (upd_self s.held f).symm (hi.lk.congr (inside_congr (by rw [hp]; rfl))) hi.dat rfl rfl hpl
      (by simp [Pc.nobody]) (fun h => by have := hi.qui h f; rw [hp, tries_sleeping] at this; rw [tries_want]; exact this), Shows.nil⟩
  | expire f =>
    have hpl := hi.plc f
    simp only [step] at hs
    split at hs <;> simp only [Option.some.injEq, Prod.mk.injEq, reduceCtorEq] at hs
    rename_i hp
    obtain ⟨rfl, rfl⟩ := hs
    rw [hp] at hpl
    exact ⟨hi.go f .wantErase _ rfl rfl (upd_self s.held f).symm (hi.lk.congr (inside_congr (by rw [hp]; rfl))) hi.dat rfl rfl hpl
      (by simp [Pc.nobody]) (fun _ => rfl), Shows.nil⟩
  | late f =>
    have hpl := hi.plc f
    simp only [step] at hs
    split at hs <;> simp only [Option.some.injEq, Prod.mk.injEq, reduceCtorEq] at hs
    rename_i hp
    obtain ⟨rfl, rfl⟩ := hs
    rw [hp] at hpl
    exact ⟨hi.go f .out _ rfl rfl (upd_self s.held f).symm (hi.lk.congr (inside_congr (by rw [hp]; rfl))) hi.dat rfl rfl hpl
      (by simp [Pc.nobody]) (fun _ => rfl), by simp [Shows]⟩
  | use f x =>
    simp only [step] at hs
    split at hs <;> simp only [Option.some.injEq, reduceCtorEq] at hs
    rename_i hg
    obtain ⟨hp, hh, hx⟩ := hg
    have hpl := hi.plc f
    rw [hp] at hpl
    have hown : s.owner = some f := by
      have := hpl.1
      simpa [State.has, hh] using this
    have ht : Touched s.mem f x (touch s.mem f x).1 (touch s.mem f x).2 := touch_spec rfl
    have hr : (touch s.mem f x).1 = false := by
      cases hb : (touch s.mem f x).1 with
      | false => rfl
      | true => have := ht.race.1 hb; have := hi.dat f x hown hx; omega
    simp only [State.acc, Prod.mk.injEq] at hs
    obtain ⟨rfl, rfl⟩ := hs
    refine ⟨hi.go f .out _ rfl rfl (upd_self s.held f).symm ?_ ?_ rfl rfl hpl (by simp [Pc.nobody]) (fun _ => rfl), ?_⟩
    · refine (hi.lk.touchOther ht ?_).congr (inside_congr (by rw [hp]))
      rintro (h | h)
      · rcases h.2 with h | h | h <;> subst h <;> simp_all
      · rw [hown] at h; cases h.1
    · intro g y h1 hy
      rw [hown] at h1; cases h1
      simp only [ht.last, upd_apply]
      split
      · rename_i e; subst e; exact ht.new
      · exact Nat.le_trans (hi.dat f y hown hy) (ht.mono y)
    · intro g y w hy
      simp [hr] at hy

end Verif.WeakMutex
