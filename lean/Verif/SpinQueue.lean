import Verif.Base

/-!
# The ready queue of `work_stealing`: a growing ring buffer under a spinlock

`include/boost/fiber/detail/context_spinlock_queue.hpp`. Every operation holds the spinlock from beginning to end, so
a history of operations of any number of threads is a sequence of operations. A slot that has never been written is
`none`; reading it, an index outside the array and a capacity of 0 (`% 0`) are undefined behaviour.
-/

namespace Verif.SpinQ

structure Q (α : Type) where
  cap   : Nat                   -- `capacity_`
  pidx  : Nat
  cidx  : Nat
  slots : List (Option α)       -- `slots_`, `capacity_` elements

/-- The constructor (`:62-65`). -/
def make (α : Type) (cap : Nat) : Q α := { cap := cap, pidx := 0, cidx := 0, slots := List.replicate cap none }

variable {α : Type}

/-- `is_full_` (`:53-55`). -/
def Q.full (q : Q α) : Bool := q.cidx == (q.pidx + 1) % q.cap

/-- `is_empty_` (`:57-59`). -/
def Q.empty (q : Q α) : Bool := q.cidx == q.pidx

/-- `memcpy(dst + at, src + from, n)`; `none`: outside one of the arrays. -/
def copy (dst : List (Option α)) (at_ : Nat) (src : List (Option α)) (from_ n : Nat) : Option (List (Option α)) :=
  if from_ + n ≤ src.length ∧ at_ + n ≤ dst.length then
    some (dst.take at_ ++ (src.drop from_).take n ++ dst.drop (at_ + n))
  else none

/-- `resize_` (`:39-51`). -/
def Q.resize (q : Q α) : Option (Q α) :=
  let slots := List.replicate (2 * q.cap) none
  let offset := q.cap - q.cidx
  match copy slots 0 q.slots q.cidx offset with
  | none => none
  | some slots =>
    match (if 0 < q.cidx then copy slots offset q.slots 0 q.pidx else some slots) with
    | none => none
    | some slots => some { cap := 2 * q.cap, cidx := 0, pidx := q.cap - 1, slots := slots }

inductive Op (α : Type)
  | push (x : α) | pop | steal | empty

inductive Res (α : Type)
  | unit | none | got (x : α) | bool (b : Bool) | ub
  deriving DecidableEq

/-- `slots_[i]`. -/
def Q.read (q : Q α) (i : Nat) : Option α := q.slots[i]?.join

/-- The operations (`:74-109`); `pinned`: main and dispatcher fibers. -/
def Q.step (pinned : α → Bool) (q : Q α) : Op α → Q α × Res α
  | .push x =>
    if q.cap = 0 then (q, .ub)
    else
      match (if q.full then q.resize else some q) with
      | none => (q, .ub)
      | some q =>
        if q.pidx < q.slots.length then
          ({ q with slots := q.slots.set q.pidx (some x), pidx := (q.pidx + 1) % q.cap }, .unit)
        else (q, .ub)
  | .pop =>
    if q.empty then (q, .none)
    else
      match q.read q.cidx with
      | none => (q, .ub)
      | some x => ({ q with cidx := (q.cidx + 1) % q.cap }, .got x)
  | .steal =>
    if q.empty then (q, .none)
    else
      match q.read q.cidx with
      | none => (q, .ub)
      | some x => if pinned x then (q, .none) else ({ q with cidx := (q.cidx + 1) % q.cap }, .got x)
  | .empty => (q, .bool q.empty)

/-- A history of operations and its results. -/
def Q.run (pinned : α → Bool) (q : Q α) : List (Op α) → Q α × List (Res α)
  | [] => (q, [])
  | op :: ops =>
    let (q1, r) := q.step pinned op
    let (q2, rs) := q1.run pinned ops
    (q2, r :: rs)

/-! ## Specification: a FIFO queue -/

/-- What an operation does to, and returns for, the queue `l`. -/
def spec (pinned : α → Bool) (l : List α) : Op α → List α × Res α
  | .push x => (l ++ [x], .unit)
  | .pop => match l with
    | [] => ([], .none)
    | x :: l => (l, .got x)
  | .steal => match l with
    | [] => ([], .none)
    | x :: l => if pinned x then (x :: l, .none) else (l, .got x)
  | .empty => (l, .bool l.isEmpty)

def specRun (pinned : α → Bool) (l : List α) : List (Op α) → List α × List (Res α)
  | [] => (l, [])
  | op :: ops =>
    let (l1, r) := spec pinned l op
    let (l2, rs) := specRun pinned l1 ops
    (l2, r :: rs)

/-! ## The ring represents a list -/

/-- The slots `cidx`, `cidx + 1`, … modulo the capacity, up to `pidx`, hold `l`. -/
structure Rep (q : Q α) (l : List α) : Prop where
  pos  : 0 < q.cap
  len  : q.slots.length = q.cap
  c    : q.cidx < q.cap
  fits : l.length < q.cap
  p    : q.pidx = (q.cidx + l.length) % q.cap
  at_  : ∀ i x, l[i]? = some x → q.slots[(q.cidx + i) % q.cap]? = some (some x)

theorem rep_make {cap : Nat} (h : 0 < cap) : Rep (make α cap) [] :=
  ⟨h, by simp [make], h, h, by simp [make, Nat.zero_mod], by simp⟩

theorem mod_two {a n : Nat} (h : a < 2 * n) : a % n = if a < n then a else a - n := by
  split
  · exact Nat.mod_eq_of_lt ‹_›
  · rw [Nat.mod_eq_sub_mod (by omega), Nat.mod_eq_of_lt (by omega)]

variable {q : Q α} {l : List α} {pinned : α → Bool}

theorem Rep.empty_iff (h : Rep q l) : q.empty = l.isEmpty := by
  have := h.p
  have h2 := h.c
  have h3 := h.fits
  rw [mod_two (by omega)] at this
  cases l with
  | nil => simp at this; simp [Q.empty, this, h2]
  | cons x l =>
    simp only [List.length_cons] at *
    simp only [Q.empty, List.isEmpty_cons, beq_eq_false_iff_ne]
    split at this <;> omega

theorem Rep.full_iff (h : Rep q l) : q.full = (l.length + 1 == q.cap) := by
  have hp := h.p
  have h2 := h.c
  have h3 := h.fits
  rw [mod_two (by omega)] at hp
  have : (q.pidx + 1) % q.cap = if q.pidx + 1 < q.cap then q.pidx + 1 else 0 := by
    rw [mod_two (by split at hp <;> omega)]; split <;> split at hp <;> omega
  rw [Bool.eq_iff_iff]
  simp only [Q.full, this, beq_iff_eq]
  split <;> split at hp <;> omega

theorem getElem?_copy {dst src d : List (Option α)} {a f n : Nat} (h : copy dst a src f n = some d) :
    d.length = dst.length ∧ ∀ i, d[i]? = if a ≤ i ∧ i < a + n then src[f + (i - a)]? else dst[i]? := by
  simp only [copy] at h
  split at h
  case isFalse => simp at h
  rename_i hc
  cases h
  constructor
  · simp; omega
  · intro i
    simp only [List.append_assoc]
    by_cases h1 : i < a
    · rw [List.getElem?_append_left (by simp; omega), List.getElem?_take_of_lt h1, if_neg (by omega)]
    · rw [List.getElem?_append_right (by simp; omega)]
      simp only [List.length_take, Nat.min_eq_left (show a ≤ dst.length by omega)]
      by_cases h2 : i < a + n
      · rw [List.getElem?_append_left (by simp; omega), List.getElem?_take_of_lt (by omega), List.getElem?_drop, if_pos (by omega)]
      · rw [List.getElem?_append_right (by simp; omega), List.getElem?_drop, if_neg (by omega)]
        congr 1
        simp; omega

theorem Rep.resize (h : Rep q l) (hf : q.full = true) : ∃ q', q.resize = some q' ∧ Rep q' l ∧ q'.full = false := by
  have hl : l.length + 1 = q.cap := by rw [h.full_iff] at hf; simpa using hf
  have h2 := h.c
  have hlen := h.len
  have hp := h.p
  rw [mod_two (by omega)] at hp
  have e1 : ∃ d, copy (List.replicate (2 * q.cap) none) 0 q.slots q.cidx (q.cap - q.cidx) = some d := by
    simp only [copy]; rw [if_pos (by simp; omega)]; exact ⟨_, rfl⟩
  obtain ⟨d, e1⟩ := e1
  obtain ⟨d1, d2⟩ := getElem?_copy e1
  simp only [List.length_replicate] at d1
  have e2 : ∃ d', (if 0 < q.cidx then copy d (q.cap - q.cidx) q.slots 0 q.pidx else some d) = some d' ∧ d'.length = 2 * q.cap ∧
      ∀ i, i < l.length → d'[i]? = q.slots[(q.cidx + i) % q.cap]? := by
    by_cases hc : 0 < q.cidx
    · have e3 : ∃ d', copy d (q.cap - q.cidx) q.slots 0 q.pidx = some d' := by
        simp only [copy]; rw [if_pos (by split at hp <;> omega)]; exact ⟨_, rfl⟩
      obtain ⟨d', e3⟩ := e3
      obtain ⟨d3, d4⟩ := getElem?_copy e3
      refine ⟨d', by rw [if_pos hc, e3], by omega, fun i hi => ?_⟩
      rw [d4, d2, mod_two (by omega)]
      split at hp
      · omega
      · by_cases h5 : q.cidx + i < q.cap
        · rw [if_neg (by omega), if_pos (by omega), if_pos h5]; simp
        · rw [if_pos (by omega), if_neg h5]; congr 1; omega
    · refine ⟨d, by rw [if_neg hc], d1, fun i hi => ?_⟩
      rw [d2, mod_two (by omega), if_pos (by omega), if_pos (by omega)]; simp
  obtain ⟨d', e2, d5, d6⟩ := e2
  have hrep : Rep { cap := 2 * q.cap, cidx := 0, pidx := q.cap - 1, slots := d' } l := by
    refine ⟨by simp; omega, by simp [d5], by simp; omega, by simp; omega, ?_, fun i x hx => ?_⟩
    · simp only [Nat.zero_add]; rw [Nat.mod_eq_of_lt (by omega)]; omega
    · have hi := (List.getElem?_eq_some_iff.1 hx).1
      simp only [Nat.zero_add]
      rw [Nat.mod_eq_of_lt (by omega), d6 i hi]
      exact h.at_ i x hx
  refine ⟨_, by simp only [Q.resize, e1, e2], hrep, ?_⟩
  rw [hrep.full_iff]
  simp; omega

theorem Rep.push (h : Rep q l) (hf : q.full = false) (x : α) :
    Rep { q with slots := q.slots.set q.pidx (some x), pidx := (q.pidx + 1) % q.cap } (l ++ [x]) := by
  have hl : l.length + 1 ≠ q.cap := by rw [h.full_iff] at hf; simpa using hf
  have h2 := h.c
  have h3 := h.fits
  have hp := h.p
  refine ⟨h.pos, by simp [h.len], h.c, by simp; omega, ?_, fun i y hy => ?_⟩
  · simp only [List.length_append, List.length_singleton, hp, Nat.mod_add_mod]; congr 1
  · simp only
    by_cases hi : i < l.length
    · rw [List.getElem?_append_left hi] at hy
      rw [List.getElem?_set_ne]
      · exact h.at_ i y hy
      · rw [hp, mod_two (by omega), mod_two (by omega)]; split <;> split <;> omega
    · have : i = l.length := by
        have := (List.getElem?_eq_some_iff.1 hy).1; simp at this; omega
      subst this
      simp at hy
      subst hy
      rw [← hp, List.getElem?_set_self]
      rw [h.len, hp]; exact Nat.mod_lt _ h.pos

theorem Rep.head {x : α} (h : Rep q (x :: l)) : q.read q.cidx = some x ∧ Rep { q with cidx := (q.cidx + 1) % q.cap } l := by
  have h2 := h.c
  have h3 := h.fits
  simp only [List.length_cons] at h3
  constructor
  · have := h.at_ 0 x rfl
    rw [Nat.add_zero, Nat.mod_eq_of_lt h2] at this
    simp [Q.read, this]
  · refine ⟨h.pos, h.len, Nat.mod_lt _ h.pos, by simp; omega, ?_, fun i y hy => ?_⟩
    · have := h.p
      simp only [List.length_cons] at this
      simp only [this, Nat.mod_add_mod]; congr 1; omega
    · have := h.at_ (i + 1) y (by simpa using hy)
      simp only [Nat.mod_add_mod]
      rw [show q.cidx + 1 + i = q.cidx + (i + 1) by omega]; exact this

theorem step_rep (h : Rep q l) (op : Op α) :
    (q.step pinned op).2 = (spec pinned l op).2 ∧ Rep (q.step pinned op).1 (spec pinned l op).1 := by
  cases op with
  | push x =>
    have hpos := h.pos
    have hlt : ∀ {q : Q α} {l : List α}, Rep q l → q.pidx < q.slots.length := fun h => by
      rw [h.len, h.p]; exact Nat.mod_lt _ h.pos
    simp only [Q.step, spec, if_neg (show q.cap ≠ 0 by omega)]
    by_cases hf : q.full = true
    · obtain ⟨q', e1, e2, e3⟩ := h.resize hf
      simp only [hf, if_true, e1, if_pos (hlt e2)]
      exact ⟨trivial, e2.push e3 x⟩
    · rw [if_neg hf]
      simp only [if_pos (hlt h)]
      exact ⟨trivial, h.push (by simpa using hf) x⟩
  | pop =>
    simp only [Q.step, spec, h.empty_iff]
    cases l with
    | nil => exact ⟨rfl, h⟩
    | cons x l => simp only [List.isEmpty_cons, Bool.false_eq_true, if_false, h.head.1]; exact ⟨trivial, h.head.2⟩
  | steal =>
    simp only [Q.step, spec, h.empty_iff]
    cases l with
    | nil => exact ⟨rfl, h⟩
    | cons x l =>
      simp only [List.isEmpty_cons, Bool.false_eq_true, if_false, h.head.1]
      split
      · exact ⟨rfl, h⟩
      · exact ⟨rfl, h.head.2⟩
  | empty => simp only [Q.step, spec, h.empty_iff]; exact ⟨trivial, h⟩

end Verif.SpinQ
