import Verif.Future
import Mathlib.Tactic.ClearExcept

/-!
# Futures: reference counts, uses of handles, waiters
-/

namespace Verif.Fut

variable {V E : Type}

/-- Who can hold a reference: a handle object or a call. -/
inductive Owner
  | inl (h : Hid) | inr (f : Fid)
  deriving DecidableEq

/-- The call uses its own reference. -/
def Pc.owns : Pc V E → Option Sid
  | .owner _ i => some i
  | .notify _ .own i | .enter _ .own i | .enq _ .own i | .waiting _ .own i _ | .unlink _ .own i _ | .last _ .own i => some i
  | _ => none

/-- The handle a call relies on. -/
def Pc.uses : Pc V E → Option Hid
  | .set _ h _ _ _ => some h
  | .notify _ (.handle h) _ | .enter _ (.handle h) _ | .enq _ (.handle h) _ | .waiting _ (.handle h) _ _
  | .unlink _ (.handle h) _ _ | .last _ (.handle h) _ => some h
  | _ => none

/-- The result a handle refers to. -/
def State.stOf (s : State V E) (h : Hid) : Option Sid := (s.hd h).bind Handle.st

def holdOf (s : State V E) : Owner → Option Sid
  | .inl h => s.stOf h
  | .inr f => (s.pc f).owns

/-- `refs` counts the owners. -/
def RC (hold : Owner → Option Sid) (refs : Sid → Nat) : Prop :=
  ∀ j, ∃ l : List Owner, l.Nodup ∧ l.length = refs j ∧ ∀ o, o ∈ l ↔ hold o = some j

def one (a : Option Sid) (j : Sid) : Nat := if a = some j then 1 else 0

@[simp] theorem one_none (j : Sid) : one none j = 0 := rfl
theorem one_some (i j : Sid) : one (some i) j = if i = j then 1 else 0 := by simp [one]

def adj (refs : Sid → Nat) (old new : Option Sid) : Sid → Nat :=
  fun j => refs j - one old j + one new j

theorem RC.set {hold : Owner → Option Sid} {refs : Sid → Nat} (h : RC hold refs) (o : Owner) (v : Option Sid) :
    RC (fun x => if x = o then v else hold x) (adj refs (hold o) v) := by
  intro j
  obtain ⟨l, hn, hl, hm⟩ := h j
  by_cases h1 : hold o = some j <;> by_cases h2 : v = some j
  · refine ⟨l, hn, ?_, ?_⟩
    · have : 0 < l.length := List.length_pos_of_mem ((hm o).2 h1)
      simp only [adj, one, h1, h2, if_true]; omega
    · intro x; by_cases hx : x = o
      · simp [hx, hm, h1, h2]
      · simp [hx, hm]
  · refine ⟨l.erase o, hn.erase _, ?_, ?_⟩
    · simp [adj, one, h1, h2, List.length_erase_of_mem ((hm o).2 h1), hl]
    · intro x; rw [hn.mem_erase_iff]; by_cases hx : x = o
      · simp [hx, h2]
      · simp [hx, hm]
  · refine ⟨o :: l, List.nodup_cons.2 ⟨fun hh => h1 ((hm o).1 hh), hn⟩, ?_, ?_⟩
    · simp [adj, one, h1, h2, hl]
    · intro x; by_cases hx : x = o
      · simp [hx, h2]
      · simp [hx, hm]
  · refine ⟨l, hn, ?_, ?_⟩
    · simp [adj, one, h1, h2, hl]
    · intro x; by_cases hx : x = o
      · simp [hx, hm, h1, h2]
      · simp [hx, hm]

theorem RC.pos {hold : Owner → Option Sid} {refs : Sid → Nat} (h : RC hold refs) {o : Owner} {j : Sid}
    (ho : hold o = some j) : 0 < refs j := by
  obtain ⟨l, _, hl, hm⟩ := h j
  rw [← hl]; exact List.length_pos_of_mem ((hm o).2 ho)

theorem RC.ex {hold : Owner → Option Sid} {refs : Sid → Nat} (h : RC hold refs) {j : Sid}
    (hj : 0 < refs j) : ∃ o, hold o = some j := by
  obtain ⟨l, _, hl, hm⟩ := h j
  rw [← hl] at hj
  obtain ⟨o, ho⟩ := List.exists_mem_of_length_pos hj
  exact ⟨o, (hm o).1 ho⟩

theorem RC.congr {hold hold' : Owner → Option Sid} {refs refs' : Sid → Nat} (h : RC hold refs)
    (h1 : ∀ o, hold' o = hold o) (h2 : ∀ j, refs' j = refs j) : RC hold' refs' := by
  have e1 : hold' = hold := funext h1
  have e2 : refs' = refs := funext h2
  subst e1 e2; exact h

/-- Reference counting and use of handles. `debt`: a reference whose owner is gone but which is still counted. -/
structure Core (s : State V E) (debt : Option Sid) : Prop where
  ref : RC (holdOf s) (fun j => s.refs j - one debt j)
  pos : ∀ j, debt = some j → 0 < s.refs j
  liv : ∀ j, s.live j = true ↔ 0 < s.refs j
  frs : ∀ j, s.next ≤ j → s.refs j = 0 ∧ s.res j = none
  usr : ∀ h f, f ∈ s.users h ↔ (s.pc f).uses = some h
  nod : ∀ h, (s.users h).Nodup
  use : ∀ f h, (s.pc f).uses = some h → s.stOf h = (s.pc f).sid

theorem core_init : Core (init : State V E) none := by
  constructor <;> simp [init, Pc.uses]
  intro j; refine ⟨[], by simp, by simp, fun o => ?_⟩
  cases o <;> simp [holdOf, State.stOf, Pc.owns]

namespace Core

variable {s : State V E} {debt : Option Sid}

theorem hold_pos (h : Core s debt) {o : Owner} {j : Sid} (ho : holdOf s o = some j) : 0 < s.refs j := by
  have := h.ref.pos ho
  omega

theorem hold_live (h : Core s debt) {o : Owner} {j : Sid} (ho : holdOf s o = some j) : s.live j = true :=
  (h.liv j).2 (h.hold_pos ho)

theorem st_live (h : Core s debt) {k : Hid} {j : Sid} (ho : s.stOf k = some j) : s.live j = true :=
  h.hold_live (o := .inl k) ho

theorem hold_lt (h : Core s debt) {o : Owner} {j : Sid} (ho : holdOf s o = some j) : j < s.next := by
  have := h.hold_pos ho
  rcases Nat.lt_or_ge j s.next with h1 | h1
  · exact h1
  · have := (h.frs j h1).1; omega

theorem owns_or_uses (p : Pc V E) : p.owns = p.sid ∨ ∃ h, p.uses = some h := by
  cases p with
  | idle => simp [Pc.owns, Pc.sid]
  | set => simp [Pc.uses]
  | owner => simp [Pc.owns, Pc.sid]
  | notify _ u | enter _ u | enq _ u | waiting _ u | unlink _ u | last _ u => cases u <;> simp [Pc.owns, Pc.uses, Pc.sid]

/-- A fiber works only on live results. -/
theorem sid_live (h : Core s debt) {f : Fid} {j : Sid} (hj : (s.pc f).sid = some j) : s.live j = true := by
  rcases owns_or_uses (s.pc f) with h1 | ⟨k, h1⟩
  · exact h.hold_live (o := .inr f) (by simp [holdOf, h1, hj])
  · exact h.st_live (k := k) (by rw [h.use f k h1, hj])

end Core

@[simp] theorem release_hd (s : State V E) (j : Sid) : (release s j).1.hd = s.hd := by unfold release; (repeat' split) <;> rfl
@[simp] theorem release_pc (s : State V E) (j : Sid) : (release s j).1.pc = s.pc := by unfold release; (repeat' split) <;> rfl
@[simp] theorem release_users (s : State V E) (j : Sid) : (release s j).1.users = s.users := by unfold release; (repeat' split) <;> rfl
@[simp] theorem release_next (s : State V E) (j : Sid) : (release s j).1.next = s.next := by unfold release; (repeat' split) <;> rfl
@[simp] theorem release_res (s : State V E) (j : Sid) : (release s j).1.res = s.res := by unfold release; (repeat' split) <;> rfl
@[simp] theorem release_splk (s : State V E) (j : Sid) : (release s j).1.splk = s.splk := by unfold release; (repeat' split) <;> rfl
@[simp] theorem release_q (s : State V E) (j : Sid) : (release s j).1.q = s.q := by unfold release; (repeat' split) <;> rfl
@[simp] theorem release_c (s : State V E) (j : Sid) : (release s j).1.c = s.c := by unfold release; (repeat' split) <;> rfl
@[simp] theorem release_now (s : State V E) (j : Sid) : (release s j).1.now = s.now := by unfold release; (repeat' split) <;> rfl
@[simp] theorem addRef_hd (s : State V E) (j : Sid) : (addRef s j).1.hd = s.hd := by unfold addRef; (repeat' split) <;> rfl
@[simp] theorem addRef_pc (s : State V E) (j : Sid) : (addRef s j).1.pc = s.pc := by unfold addRef; (repeat' split) <;> rfl
@[simp] theorem addRef_users (s : State V E) (j : Sid) : (addRef s j).1.users = s.users := by unfold addRef; (repeat' split) <;> rfl
@[simp] theorem addRef_next (s : State V E) (j : Sid) : (addRef s j).1.next = s.next := by unfold addRef; (repeat' split) <;> rfl
@[simp] theorem addRef_res (s : State V E) (j : Sid) : (addRef s j).1.res = s.res := by unfold addRef; (repeat' split) <;> rfl
@[simp] theorem addRef_splk (s : State V E) (j : Sid) : (addRef s j).1.splk = s.splk := by unfold addRef; (repeat' split) <;> rfl
@[simp] theorem addRef_q (s : State V E) (j : Sid) : (addRef s j).1.q = s.q := by unfold addRef; (repeat' split) <;> rfl
@[simp] theorem addRef_c (s : State V E) (j : Sid) : (addRef s j).1.c = s.c := by unfold addRef; (repeat' split) <;> rfl
@[simp] theorem addRef_now (s : State V E) (j : Sid) : (addRef s j).1.now = s.now := by unfold addRef; (repeat' split) <;> rfl

theorem holdOf_release (s : State V E) (j : Sid) : holdOf (release s j).1 = holdOf s := by
  funext o; cases o <;> simp [holdOf, State.stOf]

theorem holdOf_addRef (s : State V E) (j : Sid) : holdOf (addRef s j).1 = holdOf s := by
  funext o; cases o <;> simp [holdOf, State.stOf]

/-- Paying the debt. -/
theorem Core.release {s : State V E} {j : Sid} (h : Core s (some j)) : Core (release s j).1 none := by
  have hp := h.pos j rfl
  have hl := (h.liv j).2 hp
  constructor
  · rw [holdOf_release]
    refine h.ref.congr (fun _ => rfl) ?_
    intro k; simp only [Fut.release, hl, if_true]
    split <;> simp only [upd_apply, one_some] <;> split <;> simp_all <;> grind
  · simp
  · intro k; have := h.liv k
    simp only [Fut.release, hl, if_true]
    split <;> simp only [upd_apply] <;> split <;> simp_all
    omega
  · intro k hk
    simp only [release_next] at hk
    have := h.frs k hk
    simp only [release_res]
    refine ⟨?_, this.2⟩
    simp only [Fut.release, hl, if_true]
    split <;> simp only [upd_apply] <;> split <;> simp_all
  · simpa using h.usr
  · simpa using h.nod
  · intro f k hk
    simp only [release_pc, State.stOf, release_hd] at hk ⊢
    exact h.use f k hk

/-- A new handle takes a new reference. -/
theorem Core.addRef {s : State V E} {s1 : State V E} {j : Sid} {k : Hid} {x : Handle} (h : Core s none)
    (hj : 0 < s.refs j) (hk : s.stOf k = none) (hx : x.st = some j) (hu : s.users k = [])
    (e : s1 = { s with hd := upd s.hd k (some x) }) : Core (addRef s1 j).1 none := by
  have hl := (h.liv j).2 hj
  subst e
  constructor
  · rw [holdOf_addRef]
    refine (h.ref.set (.inl k) (some j)).congr ?_ ?_
    · rintro (a | a) <;> simp only [holdOf, State.stOf, upd_apply]
      · split <;> simp_all
      · simp
    · intro i; simp only [Fut.addRef, hl, if_true, adj, holdOf, hk, upd_apply]
      simp only [one_none, Nat.sub_zero, one_some]
      split <;> simp_all
      grind
  · simp
  · intro i; have := h.liv i
    simp only [Fut.addRef, hl, if_true, upd_apply]
    split <;> simp_all
  · intro i hi
    simp only [addRef_next] at hi
    have := h.frs i hi
    simp only [addRef_res]
    refine ⟨?_, this.2⟩
    simp only [Fut.addRef, hl, if_true, upd_apply]
    split <;> simp_all
  · simpa using h.usr
  · simpa using h.nod
  · intro f i hi
    simp only [addRef_pc, State.stOf, addRef_hd, upd_apply] at hi ⊢
    split
    · subst_vars; have := (h.usr _ f).2 hi; simp [hu] at this
    · exact h.use f i hi

theorem adj_one (refs : Sid → Nat) (a b : Option Sid) (j : Sid) : adj refs a b j = refs j - one a j + one b j := rfl

namespace Core

variable {s s' : State V E} {debt d' : Option Sid}

theorem users_nil (h : Core s debt) {k : Hid} (hk : s.stOf k = none) : s.users k = [] := by
  rcases hu : s.users k with _ | ⟨f, l⟩
  · rfl
  · exfalso
    have h1 := (h.usr k f).1 (by simp [hu])
    have h2 := h.use f k h1
    rw [hk] at h2
    cases hp : s.pc f <;> simp [hp, Pc.uses, Pc.sid] at h1 h2

theorem one_le (h : Core s none) (o : Owner) (j : Sid) : one (holdOf s o) j ≤ s.refs j := by
  unfold one; split
  · exact h.hold_pos (o := o) (by assumption)
  · omega

theorem two_le (h : Core s none) {o o' : Owner} (ho : o ≠ o') (j : Sid) :
    one (holdOf s o) j + one (holdOf s o') j ≤ s.refs j := by
  unfold one; split
  · rename_i h1
    split
    · rename_i h2
      obtain ⟨l, hn, hl, hm⟩ := h.ref j
      have m1 := (hm o).2 h1
      have m2 := (hm o').2 h2
      simp only [one_none, Nat.sub_zero] at hl
      rw [← hl]
      have h3 : o' ∈ l.erase o := hn.mem_erase_iff.2 ⟨fun e => ho e.symm, m2⟩
      have := List.length_pos_of_mem h3
      rw [List.length_erase_of_mem m1] at this
      omega
    · have := h.one_le o j; simp [one, h1] at this; omega
  · have := h.one_le o' j; simp only [one] at this; omega

/-- Rewriting one handle that nobody is using. -/
theorem hd1 (h : Core s none) {a : Hid} {x : Option Handle} (ha : s.users a = [])
    (e : s' = { s with hd := upd s.hd a x })
    (hr : ∀ j, s.refs j - one d' j = s.refs j - one (s.stOf a) j + one (x.bind Handle.st) j)
    (hp : ∀ j, d' = some j → 0 < s.refs j) : Core s' d' := by
  subst e
  constructor
  · refine (h.ref.set (.inl a) (x.bind Handle.st)).congr ?_ ?_
    · rintro (k | k) <;> simp only [holdOf, State.stOf, upd_apply]
      · split <;> simp_all
      · simp
    · intro j; rw [adj_one]; simpa [holdOf] using hr j
  · exact hp
  · exact h.liv
  · exact h.frs
  · exact h.usr
  · exact h.nod
  · intro f k hk
    simp only [State.stOf, upd_apply] at hk ⊢
    split
    · subst_vars; have := (h.usr _ f).2 hk; simp [ha] at this
    · exact h.use f k hk

/-- Rewriting two handles that nobody is using. -/
theorem hd2 (h : Core s none) {a b : Hid} {x y : Option Handle} (hab : a ≠ b) (ha : s.users a = []) (hb : s.users b = [])
    (e : s' = { s with hd := upd (upd s.hd a x) b y })
    (hr : ∀ j, s.refs j - one d' j =
      s.refs j - one (s.stOf a) j + one (x.bind Handle.st) j - one (s.stOf b) j + one (y.bind Handle.st) j)
    (hp : ∀ j, d' = some j → 0 < s.refs j) : Core s' d' := by
  subst e
  constructor
  · refine ((h.ref.set (.inl a) (x.bind Handle.st)).set (.inl b) (y.bind Handle.st)).congr ?_ ?_
    · rintro (k | k) <;> simp only [holdOf, State.stOf, upd_apply]
      · split <;> simp_all
        split <;> simp_all
      · simp
    · intro j; rw [adj_one, adj_one]
      have : (Owner.inl b) ≠ .inl a := by simpa using fun e => hab e.symm
      simpa [holdOf, this] using hr j
  · exact hp
  · exact h.liv
  · exact h.frs
  · exact h.usr
  · exact h.nod
  · intro f k hk
    simp only [State.stOf, upd_apply] at hk ⊢
    split
    · subst_vars; have := (h.usr _ f).2 hk; simp [hb] at this
    · split
      · subst_vars; have := (h.usr _ f).2 hk; simp [ha] at this
      · exact h.use f k hk

/-- Changing the program counter of a fiber that uses no handle before or after. -/
theorem pc1 (h : Core s debt) {f : Fid} {p : Pc V E} (hu : (s.pc f).uses = none) (hu' : p.uses = none)
    (e : s' = { s with pc := upd s.pc f p })
    (hr : ∀ j, s.refs j - one d' j = s.refs j - one debt j - one ((s.pc f).owns) j + one p.owns j)
    (hp : ∀ j, d' = some j → 0 < s.refs j) : Core s' d' := by
  subst e
  constructor
  · refine (h.ref.set (.inr f) p.owns).congr ?_ ?_
    · rintro (k | k) <;> simp only [holdOf, State.stOf, upd_apply]
      · simp
      · split <;> simp_all
    · intro j; rw [adj_one]; simpa [holdOf] using hr j
  · exact hp
  · exact h.liv
  · exact h.frs
  · intro k g
    have := h.usr k g
    simp only [upd_apply]; split
    · subst_vars; simp_all
    · exact this
  · exact h.nod
  · intro g k hk
    simp only [upd_apply] at hk ⊢
    split at hk
    · simp_all
    · have := h.use g k hk; simp [State.stOf] at this ⊢; grind

/-- Moving on inside a call. -/
theorem pcs (h : Core s debt) {f : Fid} {p : Pc V E} (hu : p.uses = (s.pc f).uses) (hi : p.sid = (s.pc f).sid)
    (ho : p.owns = (s.pc f).owns) (e1 : s'.hd = s.hd) (e2 : s'.users = s.users) (e3 : s'.refs = s.refs)
    (e4 : s'.live = s.live) (e5 : s'.next = s.next) (e6 : ∀ j, s.next ≤ j → s'.res j = s.res j)
    (e7 : s'.pc = upd s.pc f p) : Core s' debt := by
  have hh : holdOf s' = holdOf s := by
    funext o; cases o <;> simp only [holdOf, State.stOf, e1, e7, upd_apply]
    split <;> simp_all
  have hus : ∀ g, (s'.pc g).uses = (s.pc g).uses := by intro g; rw [e7, upd_apply]; split <;> simp_all
  have his : ∀ g, (s'.pc g).sid = (s.pc g).sid := by intro g; rw [e7, upd_apply]; split <;> simp_all
  constructor
  · rw [hh, e3]; exact h.ref
  · rw [e3]; exact h.pos
  · rw [e3, e4]; exact h.liv
  · intro j hj; rw [e5] at hj; rw [e3, e6 j hj]; exact h.frs j hj
  · intro k g; rw [e2, hus]; exact h.usr k g
  · rw [e2]; exact h.nod
  · intro g k hk; rw [hus] at hk; rw [his]; have := h.use g k hk; simp only [State.stOf, e1] at this ⊢; exact this

/-- Entering a call that relies on a handle. -/
theorem start (h : Core s none) {f : Fid} {k : Hid} {p : Pc V E} (hf : (s.pc f).sid = none)
    (hu : p.uses = some k) (hi : p.sid = s.stOf k) (ho : p.owns = none)
    (e : s' = { s with users := upd s.users k (f :: s.users k), pc := upd s.pc f p }) : Core s' none := by
  subst e
  have hid : s.pc f = .idle := by cases hp : s.pc f <;> simp [hp, Pc.sid] at hf; rfl
  constructor
  · refine h.ref.congr ?_ (fun _ => rfl)
    rintro (j | j) <;> simp only [holdOf, State.stOf, upd_apply]
    split
    · subst_vars; rw [hid, ho]; rfl
    · rfl
  · simp
  · exact h.liv
  · exact h.frs
  · intro k' g
    have := h.usr k' g
    simp only [upd_apply]
    by_cases h1 : g = f
    · subst h1; simp only [hid, Pc.uses, reduceCtorEq, iff_false] at this
      by_cases h2 : k' = k <;> simp_all
      exact fun e => h2 e.symm
    · by_cases h2 : k' = k <;> simp_all
  · intro k'
    simp only [upd_apply]; split
    · subst_vars
      refine List.nodup_cons.2 ⟨?_, h.nod _⟩
      rw [h.usr]; simp [hid, Pc.uses]
    · exact h.nod k'
  · intro g k' hk
    simp only [upd_apply] at hk ⊢
    split at hk
    · rw [hu] at hk; cases hk; simp [State.stOf, hi, *]
    · have := h.use g k' hk; simp [State.stOf] at this ⊢; simp [this, *]

/-- Leaving a call that relies on a handle. -/
theorem leave (h : Core s none) {f : Fid} {k : Hid} (hu : (s.pc f).uses = some k) (ho : (s.pc f).owns = none)
    (e : s' = { s with users := upd s.users k ((s.users k).erase f), pc := upd s.pc f .idle }) : Core s' none := by
  subst e
  constructor
  · refine h.ref.congr ?_ (fun _ => rfl)
    rintro (j | j) <;> simp only [holdOf, State.stOf, upd_apply]
    split
    · subst_vars; rw [ho]; rfl
    · rfl
  · simp
  · exact h.liv
  · exact h.frs
  · intro k' g
    have := h.usr k' g
    simp only [upd_apply]
    by_cases h1 : g = f
    · subst h1
      by_cases h2 : k' = k
      · subst h2; simp [Pc.uses, (h.nod _).mem_erase_iff]
      · simp_all [Pc.uses]; exact fun e => h2 e.symm
    · by_cases h2 : k' = k
      · subst h2; simp [h1, (h.nod _).mem_erase_iff, this]
      · simp_all
  · intro k'
    simp only [upd_apply]; split
    · subst_vars; exact (h.nod _).erase _
    · exact h.nod k'
  · intro g k' hk
    simp only [upd_apply] at hk ⊢
    split at hk
    · simp [Pc.uses] at hk
    · have := h.use g k' hk; simp [State.stOf] at this ⊢; simp [this, *]

end Core

end Verif.Fut
