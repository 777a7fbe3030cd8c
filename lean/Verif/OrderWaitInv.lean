import Verif.OrderWait

/-!
# Fibers that wait in an order: what holds in all states
-/

namespace Verif.OrderWait

/-- What a fiber waits for, if it is suspended at its next operation. -/
def target : Prog → Option Rsc
  | .lock m _ => some (.mtx m)
  | .tryLockUntil m _ => some (.mtx m)
  | .get p _ => some (.fut p)
  | .join g _ => some (.fib g)
  | _ => none

/-- The part of a program that is still to come has no second half of `set_value` but the one the fiber is at. -/
def Half (s : State) (c : Prog) : Prop := Plain c ∨ ∃ p k, c = .notify p k ∧ Plain k ∧ s.val p ≠ none

structure Inv (c : Config) (P : Plan) (H : Fid → List Rsc) (s : State) : Prop where
  ord : ∀ f, f < c.n → Ordered c P f (H f) (s.code f)
  half : ∀ f, f < c.n → Half s (s.code f)
  born0 : s.st 0 ≠ .unborn
  fin : ∀ f, f < c.n → s.st f = .ended → s.code f = .done
  unb : ∀ f, f < c.n → s.st f = .unborn → H f = P.duty f
  out : ∀ f, ¬ f < c.n → H f = []
  own : ∀ f m, .mtx m ∈ H f ↔ s.owner m = some f
  cnt : ∀ f m, s.owner m = some f → s.count m = (H f).count (.mtx m)
  non : ∀ f m, c.recursive m = false → (H f).count (.mtx m) ≤ 1
  duty : ∀ f r, r ∈ H f → (∀ m, r ≠ .mtx m) → r ∈ P.duty f
  once : ∀ f r, (∀ m, r ≠ .mtx m) → (H f).count r ≤ 1
  isSet : ∀ f p, f < c.n → .fut p ∈ P.duty f → .fut p ∉ H f → s.val p ≠ none ∧ s.queue (.fut p) = []
  toSet : ∀ f p, .fut p ∈ H f → s.val p ≠ none → ∃ k, s.code f = .notify p k
  toBear : ∀ f g, .start g ∈ H f → s.st g = .unborn
  isBorn : ∀ f g, f < c.n → .start g ∈ P.duty f → .start g ∉ H f → s.st g ≠ .unborn
  inq : ∀ f r, f ∈ s.queue r ↔ f < c.n ∧ s.st f = .waits ∧ target (s.code f) = some r
  aims : ∀ f, f < c.n → s.st f = .waits → ∃ r, target (s.code f) = some r
  qnd : ∀ r, (s.queue r).Nodup
  free : ∀ m, P.timed m = false → s.owner m = none → s.queue (.mtx m) ≠ [] → ∃ f, f < c.n ∧ s.st f = .ready ∧ target (s.code f) = some (.mtx m)
  other : ∀ f m, P.timed m = false → f < c.n → s.st f = .waits → target (s.code f) = some (.mtx m) → s.owner m ≠ some f
  open_ : ∀ g, s.queue (.fib g) ≠ [] → s.st g ≠ .ended
  fine : s.threw = false
  far : ∀ f, ¬ f < c.n → s.st f ≠ .waits

theorem inv_init {c : Config} {P : Plan} (hF : Follows c P) : Inv c P (fun f => if f < c.n then P.duty f else []) (init c) := by
  have hk := hF.kinds
  constructor
  case ord => intro f hf; simpa [hf, init] using hF.ordered f hf
  case half => intro f hf; exact .inl (hF.plain f hf)
  case once =>
    intro f r _
    split
    · exact List.nodup_iff_count.1 (hF.once f) r
    · simp
  case own =>
    intro f m
    simp only [init]
    split
    · constructor
      · intro h; rcases hk f _ h with ⟨p, h⟩ | ⟨g, h, _⟩ <;> cases h
      · intro h; cases h
    · simp
  case non =>
    intro f m _
    split
    · exact List.nodup_iff_count.1 (hF.once f) _
    · simp
  case toBear =>
    intro f g h
    split at h
    · rcases hk f _ h with ⟨p, h⟩ | ⟨g', h, h1, h2⟩
      · cases h
      · cases h
        have : g ≠ 0 := by simp only [Fid] at *; omega
        simp [init, this]
    · cases h
  all_goals grind [init]

theorem Half.mono {s s' : State} {c : Prog} (h : Half s c) (hv : ∀ p, s.val p ≠ none → s'.val p ≠ none) : Half s' c := by
  rcases h with h | ⟨p, k, h1, h2, h3⟩
  · exact .inl h
  · exact .inr ⟨p, k, h1, h2, hv p h3⟩

theorem Half.same {s s' : State} {c : Prog} (h : Half s c) (hv : s'.val = s.val) : Half s' c := h.mono (by rw [hv]; exact fun _ h => h)

section
variable {c : Config} {P : Plan} {H : Fid → List Rsc} {s : State} {f : Fid}

local macro "fld " h:term : tactic => `(tactic| (have hfld := $h; intros; (try simp only [setCode, own, again, notifyAll, suspend, put] at *); grind [target]))

/-- A fiber gets a mutex. -/
theorem inv_own (I : Inv c P H s) (hf : f < c.n) (hr : s.st f = .ready) {m : Nat} {k : Prog} (hn : s.owner m = none)
    (ho : Ordered c P f (.mtx m :: H f) k) (hp : Plain k) (hcode : ∀ p k', s.code f ≠ .notify p k') (ht : ∀ m', target (s.code f) = some (.mtx m') → m' = m) :
    Inv c P (put H f (.mtx m :: H f)) (setCode (own s f m) f k) := by
  have hm : ∀ g, .mtx m ∉ H g := fun g h => by rw [(I.own g m).1 h] at hn; cases hn
  have hm' : (H f).count (.mtx m) = 0 := List.count_eq_zero.2 (hm f)
  constructor
  case ord => fld I.ord
  case half => intro g hg; have := (I.half g hg).same (s' := setCode (own s f m) f k) rfl; simp only [setCode, own, put, Half] at *; grind
  case born0 => exact I.born0
  case fin => fld I.fin
  case unb => fld I.unb
  case out => fld I.out
  case own => fld I.own
  case cnt => fld I.cnt
  case non => fld I.non
  case duty => fld I.duty
  case once => fld I.once
  case isSet => fld I.isSet
  case toSet => fld I.toSet
  case toBear => fld I.toBear
  case isBorn => fld I.isBorn
  case inq => fld I.inq
  case aims => fld I.aims
  case qnd => exact I.qnd
  case free => fld I.free
  case other => fld I.other
  case open_ => exact I.open_
  case fine => exact I.fine
  case far => exact I.far

/-- A fiber gets a recursive mutex that it has. -/
theorem inv_again (I : Inv c P H s) (hf : f < c.n) (hr : s.st f = .ready) {m : Nat} {k : Prog} (hn : s.owner m = some f) (hrec : c.recursive m = true)
    (ho : Ordered c P f (.mtx m :: H f) k) (hp : Plain k) (hcode : ∀ p k', s.code f ≠ .notify p k') (ht : ∀ m', target (s.code f) = some (.mtx m') → m' = m) :
    Inv c P (put H f (.mtx m :: H f)) (setCode (again s m) f k) := by
  constructor
  case ord => fld I.ord
  case half => intro g hg; have := I.half g hg; simp only [setCode, own, again, notifyOne, notifyAll, suspend, put, Half] at *; grind
  case born0 => fld I.born0
  case fin => fld I.fin
  case unb => fld I.unb
  case out => fld I.out
  case own => fld I.own
  case cnt => fld I.cnt
  case non => fld I.non
  case duty => fld I.duty
  case once => fld I.once
  case isSet => fld I.isSet
  case toSet => fld I.toSet
  case toBear => fld I.toBear
  case isBorn => fld I.isBorn
  case inq => fld I.inq
  case aims => fld I.aims
  case qnd => fld I.qnd
  case free => fld I.free
  case other => fld I.other
  case open_ => fld I.open_
  case fine => fld I.fine
  case far => fld I.far

/-- A fiber goes on, nothing else changes. -/
theorem inv_on (I : Inv c P H s) (hf : f < c.n) (hr : s.st f = .ready) {k : Prog}
    (ho : Ordered c P f (H f) k) (hp : Plain k) (hcode : ∀ p k', s.code f ≠ .notify p k') (ht : ∀ m', target (s.code f) = some (.mtx m') → P.timed m' = true) :
    Inv c P H (setCode s f k) := by
  constructor
  case ord => fld I.ord
  case half => intro g hg; have := I.half g hg; simp only [setCode, own, again, notifyOne, notifyAll, suspend, put, Half] at *; grind
  case born0 => fld I.born0
  case fin => fld I.fin
  case unb => fld I.unb
  case out => fld I.out
  case own => fld I.own
  case cnt => fld I.cnt
  case non => fld I.non
  case duty => fld I.duty
  case once => fld I.once
  case isSet => fld I.isSet
  case toSet => fld I.toSet
  case toBear => fld I.toBear
  case isBorn => fld I.isBorn
  case inq => fld I.inq
  case aims => fld I.aims
  case qnd => fld I.qnd
  case free => fld I.free
  case other => fld I.other
  case open_ => fld I.open_
  case fine => fld I.fine
  case far => fld I.far

/-- A fiber is suspended. -/
theorem inv_suspend (I : Inv c P H s) (hf : f < c.n) (hr : s.st f = .ready) {r : Rsc} (ht : target (s.code f) = some r)
    (h1 : ∀ m, r = .mtx m → (P.timed m = false → s.owner m ≠ some f) ∧ s.owner m ≠ none) (h2 : ∀ p, r = .fut p → s.val p = none) (h3 : ∀ g, r = .fib g → s.st g ≠ .ended ∧ g ≠ f) :
    Inv c P H (suspend s f r) := by
  have hq : ∀ r, f ∉ s.queue r := fun r h => by have := ((I.inq f r).1 h).2.1; rw [hr] at this; cases this
  constructor
  case ord => fld I.ord
  case half => intro g hg; have := I.half g hg; simp only [setCode, own, again, notifyOne, notifyAll, suspend, put, Half] at *; grind
  case born0 => fld I.born0
  case fin => fld I.fin
  case unb => fld I.unb
  case out => fld I.out
  case own => fld I.own
  case cnt => fld I.cnt
  case non => fld I.non
  case duty => fld I.duty
  case once => fld I.once
  case isSet => fld I.isSet
  case toSet => fld I.toSet
  case toBear => fld I.toBear
  case isBorn => fld I.isBorn
  case inq => fld I.inq
  case aims => fld I.aims
  case qnd => fld I.qnd
  case free => fld I.free
  case other => fld I.other
  case open_ => fld I.open_
  case fine => fld I.fine
  case far => fld I.far

/-- A fiber gives a recursive mutex back that it has several times. -/
theorem inv_less (I : Inv c P H s) (hf : f < c.n) (hr : s.st f = .ready) {m : Nat} {k : Prog} (hn : s.owner m = some f) (hrec : c.recursive m = true) (h1 : s.count m ≠ 1)
    (ho : Ordered c P f ((H f).erase (.mtx m)) k) (hp : Plain k) (hcode : ∀ p k', s.code f ≠ .notify p k') (ht : ∀ m', target (s.code f) ≠ some (.mtx m')) :
    Inv c P (put H f ((H f).erase (.mtx m))) (setCode { s with count := put s.count m (s.count m - 1) } f k) := by
  have hc := I.cnt f m hn
  have hmem : ∀ r, r ∈ (H f).erase (.mtx m) ↔ r ∈ H f := by
    intro r
    rw [← List.count_pos_iff, ← List.count_pos_iff, List.count_erase]
    have := List.count_pos_iff.2 ((I.own f m).2 hn)
    grind
  have hcount : ∀ r, ((H f).erase (.mtx m)).count r = (H f).count r - if r = .mtx m then 1 else 0 := by
    intro r; rw [List.count_erase]; grind
  constructor
  case ord => fld I.ord
  case half => intro g hg; have := I.half g hg; simp only [setCode, own, again, notifyOne, notifyAll, suspend, put, Half] at *; grind
  case born0 => fld I.born0
  case fin => fld I.fin
  case unb => fld I.unb
  case out => fld I.out
  case own => fld I.own
  case cnt => fld I.cnt
  case non => fld I.non
  case duty => fld I.duty
  case once => fld I.once
  case isSet => fld I.isSet
  case toSet => fld I.toSet
  case toBear => fld I.toBear
  case isBorn => fld I.isBorn
  case inq => fld I.inq
  case aims => fld I.aims
  case qnd => fld I.qnd
  case free => fld I.free
  case other => fld I.other
  case open_ => fld I.open_
  case fine => fld I.fine
  case far => fld I.far

/-- A fiber sets a promise. -/
theorem inv_set (I : Inv c P H s) (hf : f < c.n) (hr : s.st f = .ready) {p v : Nat} {k : Prog} (hn : s.val p = none) (hm : .fut p ∈ H f)
    (ho : Ordered c P f (H f) (.notify p k)) (hp : Plain k) (hcode : ∀ p k', s.code f ≠ .notify p k') (ht : ∀ m', target (s.code f) ≠ some (.mtx m')) 
    (hone : ∀ f g r, r ∈ P.duty f → r ∈ P.duty g → f = g) :
    Inv c P H (setCode { s with val := put s.val p (some v) } f (.notify p k)) := by
  have hd := I.duty
  constructor
  case ord => fld I.ord
  case half => intro g hg; have := I.half g hg; simp only [setCode, own, again, notifyOne, notifyAll, suspend, put, Half] at *; grind
  case born0 => fld I.born0
  case fin => fld I.fin
  case unb => fld I.unb
  case out => fld I.out
  case own => fld I.own
  case cnt => fld I.cnt
  case non => fld I.non
  case duty => fld I.duty
  case once => fld I.once
  case isSet => fld I.isSet
  case toSet => fld I.toSet
  case toBear => fld I.toBear
  case isBorn => fld I.isBorn
  case inq => fld I.inq
  case aims => fld I.aims
  case qnd => fld I.qnd
  case free => fld I.free
  case other => fld I.other
  case open_ => fld I.open_
  case fine => fld I.fine
  case far => fld I.far

/-- A fiber launches another. -/
theorem inv_launch (I : Inv c P H s) (hf : f < c.n) (hr : s.st f = .ready) {g : Fid} {k : Prog} (hn : s.st g = .unborn) (hm : .start g ∈ H f)
    (ho : Ordered c P f ((H f).erase (.start g)) k) (hp : Plain k) (hcode : ∀ p k', s.code f ≠ .notify p k') (ht : ∀ m', target (s.code f) ≠ some (.mtx m')) 
    (hone : ∀ f g r, r ∈ P.duty f → r ∈ P.duty g → f = g) :
    Inv c P (put H f ((H f).erase (.start g))) (setCode { s with st := put s.st g .ready } f k) := by
  have hd := I.duty
  have hcount : ∀ r, ((H f).erase (.start g)).count r = (H f).count r - if r = .start g then 1 else 0 := by
    intro r; rw [List.count_erase]; grind
  have h1 := I.once f (.start g) (by simp)
  have hmem : ∀ r, r ∈ (H f).erase (.start g) ↔ r ∈ H f ∧ r ≠ .start g := by
    intro r
    rw [← List.count_pos_iff, ← List.count_pos_iff, hcount]
    grind
  constructor
  case ord => fld I.ord
  case half => intro g hg; have := I.half g hg; simp only [setCode, own, again, notifyOne, notifyAll, suspend, put, Half] at *; grind
  case born0 => fld I.born0
  case fin => fld I.fin
  case unb => fld I.unb
  case out => fld I.out
  case own => fld I.own
  case cnt => fld I.cnt
  case non => fld I.non
  case duty => fld I.duty
  case once => fld I.once
  case isSet => fld I.isSet
  case toSet => fld I.toSet
  case toBear => fld I.toBear
  case isBorn => fld I.isBorn
  case inq => fld I.inq
  case aims => fld I.aims
  case qnd => fld I.qnd
  case free => fld I.free
  case other => fld I.other
  case open_ => fld I.open_
  case fine => fld I.fine
  case far => fld I.far

/-- A fiber releases a mutex, nobody waits. -/
theorem inv_release (I : Inv c P H s) (hf : f < c.n) (hr : s.st f = .ready) {m : Nat} {k : Prog} (hn : s.owner m = some f) (h1 : s.count m = 1) (hq : s.queue (.mtx m) = [])
    (ho : Ordered c P f ((H f).erase (.mtx m)) k) (hp : Plain k) (hcode : ∀ p k', s.code f ≠ .notify p k') (ht : ∀ m', target (s.code f) ≠ some (.mtx m')) :
    Inv c P (put H f ((H f).erase (.mtx m))) (setCode { s with owner := put s.owner m none, count := put s.count m 0 } f k) := by
  have hc := I.cnt f m hn
  have hcount : ∀ r, ((H f).erase (.mtx m)).count r = (H f).count r - if r = .mtx m then 1 else 0 := by
    intro r; rw [List.count_erase]; grind
  have hmem : ∀ r, r ∈ (H f).erase (.mtx m) ↔ r ∈ H f ∧ r ≠ .mtx m := by
    intro r
    rw [← List.count_pos_iff, ← List.count_pos_iff, hcount]
    grind
  constructor
  case ord => fld I.ord
  case half => intro g hg; have := I.half g hg; simp only [setCode, own, again, notifyOne, notifyAll, suspend, put, Half] at *; grind
  case born0 => fld I.born0
  case fin => fld I.fin
  case unb => fld I.unb
  case out => fld I.out
  case own => fld I.own
  case cnt => fld I.cnt
  case non => fld I.non
  case duty => fld I.duty
  case once => fld I.once
  case isSet => fld I.isSet
  case toSet => fld I.toSet
  case toBear => fld I.toBear
  case isBorn => fld I.isBorn
  case inq => fld I.inq
  case aims => fld I.aims
  case qnd => fld I.qnd
  case free => fld I.free
  case other => fld I.other
  case open_ => fld I.open_
  case fine => fld I.fine
  case far => fld I.far

/-- A fiber releases a mutex and wakes another. -/
theorem inv_hand (I : Inv c P H s) (hf : f < c.n) (hr : s.st f = .ready) {m : Nat} {k : Prog} {g : Fid} {q : List Fid} (hn : s.owner m = some f) (h1 : s.count m = 1)
    (hq : s.queue (.mtx m) = g :: q)
    (ho : Ordered c P f ((H f).erase (.mtx m)) k) (hp : Plain k) (hcode : ∀ p k', s.code f ≠ .notify p k') (ht : ∀ m', target (s.code f) ≠ some (.mtx m')) :
    Inv c P (put H f ((H f).erase (.mtx m)))
      { code := put s.code f k, st := put s.st g .ready, owner := put s.owner m none, count := put s.count m 0, queue := put s.queue (.mtx m) q, val := s.val, threw := s.threw } := by
  have hc := I.cnt f m hn
  have hcount : ∀ r, ((H f).erase (.mtx m)).count r = (H f).count r - if r = .mtx m then 1 else 0 := by
    intro r; rw [List.count_erase]; grind
  have hmem : ∀ r, r ∈ (H f).erase (.mtx m) ↔ r ∈ H f ∧ r ≠ .mtx m := by
    intro r
    rw [← List.count_pos_iff, ← List.count_pos_iff, hcount]
    grind
  have hg := (I.inq g (.mtx m)).1 (by rw [hq]; simp)
  have hgf : g ≠ f := by rintro rfl; rw [hr] at hg; exact absurd hg.2.1 (by simp)
  have hnd := I.qnd (.mtx m)
  rw [hq] at hnd
  have hnd := List.nodup_cons.1 hnd
  constructor
  case ord => fld I.ord
  case half => intro g hg; have := I.half g hg; simp only [setCode, own, again, notifyOne, notifyAll, suspend, put, Half] at *; grind
  case born0 => fld I.born0
  case fin => fld I.fin
  case unb => fld I.unb
  case out => fld I.out
  case own => fld I.own
  case cnt => fld I.cnt
  case non => fld I.non
  case duty => fld I.duty
  case once => fld I.once
  case isSet => fld I.isSet
  case toSet => fld I.toSet
  case toBear => fld I.toBear
  case isBorn => fld I.isBorn
  case inq => fld I.inq
  case aims => fld I.aims
  case qnd => fld I.qnd
  case free => fld I.free
  case other => fld I.other
  case open_ => fld I.open_
  case fine => fld I.fine
  case far => fld I.far

/-- A fiber wakes those that wait for a promise. -/
theorem inv_notify (I : Inv c P H s) (hf : f < c.n) (hr : s.st f = .ready) {p : Nat} {k : Prog} (hv : s.val p ≠ none) (hm : .fut p ∈ H f)
    (ho : Ordered c P f ((H f).erase (.fut p)) k) (hp : Plain k) (hcode : s.code f = .notify p k)
    (hone : ∀ f g r, r ∈ P.duty f → r ∈ P.duty g → f = g) :
    Inv c P (put H f ((H f).erase (.fut p))) (notifyAll (setCode s f k) (.fut p)) := by
  have hd := I.duty
  have hcount : ∀ r, ((H f).erase (.fut p)).count r = (H f).count r - if r = .fut p then 1 else 0 := by
    intro r; rw [List.count_erase]; grind
  have h1 := I.once f (.fut p) (by simp)
  have hmem : ∀ r, r ∈ (H f).erase (.fut p) ↔ r ∈ H f ∧ r ≠ .fut p := by
    intro r
    rw [← List.count_pos_iff, ← List.count_pos_iff, hcount]
    grind
  have hin := fun g => I.inq g (.fut p)
  constructor
  case ord => fld I.ord
  case half => intro g hg; have := I.half g hg; simp only [setCode, own, again, notifyOne, notifyAll, suspend, put, Half] at *; grind
  case born0 => fld I.born0
  case fin => fld I.fin
  case unb => fld I.unb
  case out => fld I.out
  case own => fld I.own
  case cnt => fld I.cnt
  case non => fld I.non
  case duty => fld I.duty
  case once => fld I.once
  case isSet => fld I.isSet
  case toSet => fld I.toSet
  case toBear => fld I.toBear
  case isBorn => fld I.isBorn
  case inq => fld I.inq
  case aims => fld I.aims
  case qnd => fld I.qnd
  case free => fld I.free
  case other => fld I.other
  case open_ => fld I.open_
  case fine => fld I.fine
  case far => fld I.far

/-- A fiber ends. -/
theorem inv_end (I : Inv c P H s) (hf : f < c.n) (hr : s.st f = .ready) (hcode : s.code f = .done) :
    Inv c P H (notifyAll { s with st := put s.st f .ended } (.fib f)) := by
  have hin := fun g => I.inq g (.fib f)
  constructor
  case ord => fld I.ord
  case half => intro g hg; have := I.half g hg; simp only [setCode, own, again, notifyOne, notifyAll, suspend, put, Half] at *; grind
  case born0 => fld I.born0
  case fin => fld I.fin
  case unb => fld I.unb
  case out => fld I.out
  case own => fld I.own
  case cnt => fld I.cnt
  case non => fld I.non
  case duty => fld I.duty
  case once => fld I.once
  case isSet => fld I.isSet
  case toSet => fld I.toSet
  case toBear => fld I.toBear
  case isBorn => fld I.isBorn
  case inq => fld I.inq
  case aims => fld I.aims
  case qnd => fld I.qnd
  case free => fld I.free
  case other => fld I.other
  case open_ => fld I.open_
  case fine => fld I.fine
  case far => fld I.far

/-- The time of a fiber is over. -/
theorem inv_timeout (I : Inv c P H s) (hf : f < c.n) (hw : s.st f = .waits) {m : Nat} {k : Bool → Prog} (hcode : s.code f = .tryLockUntil m k) (htm : P.timed m = true)
    (ho : Ordered c P f (H f) (k false)) (hp : Plain (k false)) :
    Inv c P H (setCode { s with st := put s.st f .ready, queue := put s.queue (.mtx m) ((s.queue (.mtx m)).filter (· ≠ f)) } f (k false)) := by
  have hq : ∀ r, f ∈ s.queue r → r = .mtx m := fun r h => by have := ((I.inq f r).1 h).2.2; rw [hcode] at this; simpa [target, eq_comm] using this
  constructor
  case ord => fld I.ord
  case half => intro g hg; have := I.half g hg; simp only [setCode, own, again, notifyOne, notifyAll, suspend, put, Half] at *; grind
  case born0 => fld I.born0
  case fin => fld I.fin
  case unb => fld I.unb
  case out => fld I.out
  case own => fld I.own
  case cnt => fld I.cnt
  case non => fld I.non
  case duty => fld I.duty
  case once => fld I.once
  case isSet => fld I.isSet
  case toSet => fld I.toSet
  case toBear => fld I.toBear
  case isBorn => fld I.isBorn
  case inq => fld I.inq
  case aims => fld I.aims
  case qnd => intro r; have := I.qnd r; simp only [setCode, put]; split <;> first | exact this | (rename_i h; subst h; exact this.filter _)
  case free => fld I.free
  case other => fld I.other
  case open_ => fld I.open_
  case fine => fld I.fine
  case far => fld I.far

end

end Verif.OrderWait
