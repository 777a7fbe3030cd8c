import Verif.Gpu

/-!
# Waiting for GPU streams: C57
-/

namespace Verif.Gpu

/-- What became of the streams, in the order in which it did. -/
def outcomes (tr : List Obs) : List (Stream × Status) :=
  tr.filterMap fun
    | .called st e => some (st, e)
    | .refused st e => some (st, e)
    | _ => none

theorem outcomes_append (x y : List Obs) : outcomes (x ++ y) = outcomes x ++ outcomes y := List.filterMap_append

/-- C57: `waitfor_all( args)` returns, without undefined behaviour, only what each of the streams reported, each once. -/
def Spec (args : List Stream) (tr : List Obs) : Prop :=
  ∀ x r y, tr = x ++ .returned r :: y →
    r = outcomes x ∧ (r.map Prod.fst).Nodup ∧ ∀ st, st ∈ r.map Prod.fst ↔ st ∈ args

theorem spec_nil (args : List Stream) : Spec args [] := by
  intro x r y h
  simp at h

/-- A step that does not return. -/
theorem Spec.other {args : List Stream} {tr : List Obs} (h : Spec args tr) {o : List Obs} (ho : ∀ r, Obs.returned r ∉ o) : Spec args (tr ++ o) := by
  intro x r y e
  rcases List.append_eq_append_iff.1 e with ⟨z, rfl, hz⟩ | ⟨z, rfl, hz⟩
  · exact absurd (by rw [hz]; simp) (ho r)
  · cases z with
    | nil =>
      simp only [List.nil_append] at hz
      exact absurd (by rw [← hz]; simp) (ho r)
    | cons w z =>
      simp only [List.cons_append, List.cons.injEq] at hz
      obtain ⟨rfl, rfl⟩ := hz
      exact h x r z rfl

/-- A step that returns. -/
theorem Spec.ret {args : List Stream} {tr : List Obs} (h : Spec args tr) {r : List (Stream × Status)}
    (hr : r = outcomes tr ∧ (r.map Prod.fst).Nodup ∧ ∀ st, st ∈ r.map Prod.fst ↔ st ∈ args) : Spec args (tr ++ [.returned r]) := by
  intro x r' y e
  rcases List.append_eq_append_iff.1 e with ⟨z, rfl, hz⟩ | ⟨z, rfl, hz⟩
  · cases z with
    | nil =>
      simp only [List.nil_append, List.cons.injEq, Obs.returned.injEq] at hz
      obtain ⟨rfl, _⟩ := hz
      simpa using hr
    | cons w z => simp at hz
  · cases z with
    | nil =>
      simp only [List.nil_append, List.cons.injEq, Obs.returned.injEq] at hz
      obtain ⟨rfl, _⟩ := hz
      simpa using hr
    | cons w z =>
      simp only [List.cons_append, List.cons.injEq] at hz
      obtain ⟨rfl, rfl⟩ := hz
      exact h x r' z rfl

namespace Many

/-! ### The set -/

theorem mem_insert {x y : Stream} {l : List Stream} : y ∈ insert x l ↔ y = x ∨ y ∈ l := by
  induction l with
  | nil => simp [insert]
  | cons z l ih =>
    unfold insert
    split
    · simp
    · split
      · rename_i h; subst h; simp
      · simp only [List.mem_cons, ih]
        constructor <;> (intro h; rcases h with h | h | h <;> simp [h])

def Sorted (l : List Stream) : Prop := l.Pairwise (· < ·)

theorem insert_sorted {x : Stream} {l : List Stream} (h : Sorted l) : Sorted (insert x l) := by
  induction l with
  | nil => simp [insert, Sorted]
  | cons z l ih =>
    unfold insert
    have h' := List.pairwise_cons.1 h
    split
    · rename_i hx
      refine List.pairwise_cons.2 ⟨?_, h⟩
      intro y hy
      rcases List.mem_cons.1 hy with rfl | hy
      · exact hx
      · exact Nat.lt_trans hx (h'.1 y hy)
    · split
      · exact h
      · rename_i h1 h2
        refine List.pairwise_cons.2 ⟨?_, ih h'.2⟩
        intro y hy
        rcases mem_insert.1 hy with rfl | hy
        · exact Nat.lt_of_le_of_ne (Nat.le_of_not_lt h1) (fun e => h2 e.symm)
        · exact h'.1 y hy

theorem foldl_insert {args : List Stream} : ∀ {l : List Stream}, Sorted l → Sorted (args.foldl (fun s x => insert x s) l) ∧
    ∀ y, y ∈ args.foldl (fun s x => insert x s) l ↔ y ∈ args ∨ y ∈ l := by
  induction args with
  | nil => intro l h; exact ⟨h, by simp⟩
  | cons a args ih =>
    intro l h
    obtain ⟨h1, h2⟩ := ih (insert_sorted (x := a) h)
    refine ⟨h1, ?_⟩
    intro y
    rw [List.foldl_cons, h2, mem_insert, List.mem_cons, ← or_assoc, or_comm (a := y ∈ args)]

theorem mkSet_sorted (args : List Stream) : Sorted (mkSet args) := (foldl_insert List.Pairwise.nil).1
theorem mem_mkSet {args : List Stream} {y : Stream} : y ∈ mkSet args ↔ y ∈ args := by
  have := (foldl_insert (args := args) (l := []) List.Pairwise.nil).2 y
  unfold mkSet
  simpa using this

theorem sorted_nodup {l : List Stream} (h : Sorted l) : l.Nodup := h.imp Nat.ne_of_lt

theorem succ_some {x : Stream} {l l' : List Stream} (hl : Sorted l) (h : succ x l = some l') : x ∈ l ∧ l' = l.filter (x < ·) := by
  induction l with
  | nil => simp [succ] at h
  | cons z l ih =>
    have h' := List.pairwise_cons.1 hl
    unfold succ at h
    split at h
    · rename_i e; subst e
      cases h
      refine ⟨by simp, ?_⟩
      rw [List.filter_cons_of_neg (by simp), List.filter_eq_self.2]
      intro a ha
      simpa using h'.1 a ha
    · obtain ⟨h1, h2⟩ := ih h'.2 h
      refine ⟨List.mem_cons_of_mem _ h1, ?_⟩
      rw [List.filter_cons_of_neg (by simpa using Nat.le_of_lt (h'.1 x h1))]
      exact h2

theorem succ_none {x : Stream} {l : List Stream} (h : succ x l = none) : x ∉ l := by
  induction l with
  | nil => simp
  | cons z l ih =>
    unfold succ at h
    split at h
    · cases h
    · rename_i e
      simp only [List.mem_cons, not_or]
      exact ⟨e, ih h⟩

/-! ### Invariant -/

/-- Streams the constructor has not come to yet. -/
def todo (s : State) : List Stream :=
  match s.pc with
  | .add it => s.set.filter (it ≤ ·)
  | .next it => s.set.filter (it < ·)
  | _ => []

structure Inv (args : List Stream) (s : State) (tr : List Obs) : Prop where
  spec : Spec args tr
  sorted : Sorted s.set
  res : s.res = outcomes tr
  /-- every argument is still in the set, or has its outcome, once -/
  acc : ∀ st, st ∈ args ↔ st ∈ s.set ∨ st ∈ s.res.map Prod.fst
  nd : (s.res.map Prod.fst).Nodup
  disj : ∀ st ∈ s.set, st ∉ s.res.map Prod.fst
  /-- a stream in the set has a callback to come, or its turn in the constructor -/
  due : s.broken = false → ∀ st ∈ s.set, s.cb st = .due ∨ st ∈ todo s
  due_in : ∀ st, s.cb st = .due → st ∈ s.set
  todo_no : s.broken = false → ∀ st ∈ todo s, s.cb st = .no
  addin : ∀ it, s.pc = .add it → it ∈ s.set ∧ s.cb it = .no
  emp : s.pc = .returned → s.set = []
  /-- no lost wake-up -/
  wk : s.pc = .blocked → s.set = [] → ∃ st, s.cb st = .unlocked
  unl : ∀ st, s.cb st = .unlocked → s.set = []
  tb : s.tame = true → s.broken = false
  tn : s.tame = true → ∀ it, s.pc = .next it → it ∈ s.set
  tu : s.tame = true → ∀ st, s.cb st = .unlocked → s.pc = .blocked
  uniq : ∀ st st', s.cb st = .unlocked → s.cb st' = .unlocked → st = st'

theorem loop_cases (l : List Stream) : (l = [] ∧ loop l = .check) ∨ ∃ x r, l = x :: r ∧ loop l = .add x := by
  cases l with
  | nil => exact Or.inl ⟨rfl, rfl⟩
  | cons x r => exact Or.inr ⟨x, r, rfl, rfl⟩

theorem inv_init (b : Bool) (args : List Stream) : Inv args (init b args) [] := by
  have hs := mkSet_sorted args
  rcases loop_cases (mkSet args) with ⟨h1, h2⟩ | ⟨x, r, h1, h2⟩
  · refine ⟨spec_nil _, hs, rfl, ?_, by simp [init], by simp [init], ?_, by simp [init], by simp [init], ?_, by simp [init, h1], ?_, by simp [init], by simp [init], ?_,
      by simp [init], by simp [init]⟩
    · intro st; simp [init, mem_mkSet]
    · intro _ st hst
      have : st ∈ mkSet args := hst
      rw [h1] at this; cases this
    · intro it h; have : loop (mkSet args) = .add it := h; rw [h2] at this; cases this
    · intro h; have : loop (mkSet args) = .blocked := h; rw [h2] at this; cases this
    · intro _ it h; have : loop (mkSet args) = .next it := h; rw [h2] at this; cases this
  · have hmin : ∀ st ∈ mkSet args, x ≤ st := by
      rw [h1] at hs ⊢
      intro st hst
      rcases List.mem_cons.1 hst with rfl | hst
      · exact Nat.le_refl _
      · exact Nat.le_of_lt ((List.pairwise_cons.1 hs).1 st hst)
    refine ⟨spec_nil _, hs, rfl, ?_, by simp [init], by simp [init], ?_, by simp [init], by simp [init], ?_, ?_, ?_, by simp [init], by simp [init], ?_,
      by simp [init], by simp [init]⟩
    · intro st; simp [init, mem_mkSet]
    · intro _ st hst
      refine Or.inr ?_
      have hst : st ∈ mkSet args := hst
      simp only [todo, init, h2, List.mem_filter]
      exact ⟨hst, by simpa using hmin st hst⟩
    · intro it h
      have : loop (mkSet args) = .add it := h
      rw [h2] at this; cases this
      exact ⟨by show x ∈ mkSet args; rw [h1]; simp, rfl⟩
    · intro h; have : loop (mkSet args) = .returned := h; rw [h2] at this; cases this
    · intro h; have : loop (mkSet args) = .blocked := h; rw [h2] at this; cases this
    · intro _ it h; have : loop (mkSet args) = .next it := h; rw [h2] at this; cases this

theorem mem_erase_iff {l : List Stream} (h : Sorted l) {x y : Stream} : y ∈ l.erase x ↔ y ≠ x ∧ y ∈ l := (sorted_nodup h).mem_erase_iff

theorem erase_sorted {l : List Stream} (h : Sorted l) {x : Stream} : Sorted (l.erase x) := List.Pairwise.sublist List.erase_sublist h

theorem inv_step {args : List Stream} {s s' : State} {tr o : List Obs} {e : Event} (h : Inv args s tr) (hs : step s e = some (s', o)) :
    Inv args s' (tr ++ o) := by
  unfold step at hs
  by_cases hb : s.broken = true
  · rw [if_pos hb] at hs; cases hs
  rw [if_neg hb] at hs
  have hb : s.broken = false := by simpa using hb
  cases e with
  | addOk =>
    dsimp only at hs
    cases hpc : s.pc with
    | add it =>
      rw [hpc] at hs
      cases hs
      obtain ⟨hin, hno⟩ := h.addin it hpc
      have htd : ∀ st, st ∈ todo s ↔ st ∈ s.set ∧ it ≤ st := by intro st; simp [todo, hpc]
      refine ⟨h.spec.other (by simp), h.sorted, by rw [outcomes_append, ← h.res]; simp [outcomes], h.acc, h.nd, h.disj, ?_, ?_, ?_, ?_, ?_, ?_, ?_, ?_, ?_, ?_, ?_⟩
      · intro _ st hst
        by_cases e : st = it
        · subst e; exact Or.inl (by simp [upd_apply])
        · rcases h.due hb st hst with hd | hd
          · exact Or.inl (by simp [upd_apply, e, hd])
          · refine Or.inr ?_
            have h1 := (htd st).1 hd
            simp only [todo, List.mem_filter]
            exact ⟨hst, by simpa using Nat.lt_of_le_of_ne h1.2 (fun e' => e e'.symm)⟩
      · intro st hst
        simp only [upd_apply] at hst
        split at hst
        · rename_i e; subst e; exact hin
        · exact h.due_in st hst
      · intro _ st hst
        simp only [todo, List.mem_filter, decide_eq_true_eq] at hst
        have hne : st ≠ it := fun e => by subst e; exact Nat.lt_irrefl _ hst.2
        simp only [upd_apply, if_neg hne]
        exact h.todo_no hb st ((htd st).2 ⟨hst.1, Nat.le_of_lt hst.2⟩)
      · intro it' e; cases e
      · intro e; cases e
      · intro e; cases e
      · intro st hst
        simp only [upd_apply] at hst
        split at hst
        · cases hst
        · exact h.unl st hst
      · exact h.tb
      · intro _ it' e; cases e; exact hin
      · intro ht st hst
        simp only [upd_apply] at hst
        split at hst
        · cases hst
        · have := h.tu ht st hst; rw [hpc] at this; cases this
      · intro st st' e1 e2
        simp only [upd_apply] at e1 e2
        split at e1
        · cases e1
        · split at e2
          · cases e2
          · exact h.uniq _ _ e1 e2
    | _ => rw [hpc] at hs; cases hs
  | addFail er =>
    dsimp only at hs
    cases hpc : s.pc with
    | add it =>
      rw [hpc] at hs
      dsimp only at hs
      split at hs
      case isFalse => cases hs
      rename_i ht
      cases hs
      obtain ⟨hin, hno⟩ := h.addin it hpc
      have htd : ∀ st, st ∈ todo s ↔ st ∈ s.set ∧ it ≤ st := by intro st; simp [todo, hpc]
      have hnt : ¬ s.tame = true := by rw [ht]; simp
      refine ⟨h.spec.other (by simp), erase_sorted h.sorted, by rw [outcomes_append, ← h.res]; simp [outcomes], ?_, ?_, ?_, ?_, ?_, ?_, ?_, ?_, ?_, ?_,
        fun h => absurd h hnt, fun h => absurd h hnt, fun h => absurd h hnt, h.uniq⟩
      · intro st
        simp only [List.map_append, List.map_cons, List.map_nil, List.mem_append, List.mem_singleton, mem_erase_iff h.sorted]
        rw [h.acc st]
        by_cases e : st = it
        · subst e; simp [hin]
        · simp [e]
      · simp only [List.map_append, List.map_cons, List.map_nil, List.nodup_append]
        refine ⟨h.nd, by simp, ?_⟩
        intro a ha b hb' e
        simp only [List.mem_singleton] at hb'
        subst hb'
        subst e
        exact h.disj _ hin ha
      · intro st hst
        obtain ⟨h1, h2⟩ := (mem_erase_iff h.sorted).1 hst
        simp only [List.map_append, List.map_cons, List.map_nil, List.mem_append, List.mem_singleton, not_or]
        exact ⟨h.disj st h2, h1⟩
      · intro _ st hst
        obtain ⟨h1, h2⟩ := (mem_erase_iff h.sorted).1 hst
        rcases h.due hb st h2 with hd | hd
        · exact Or.inl hd
        · refine Or.inr ?_
          have h3 := (htd st).1 hd
          simp only [todo, List.mem_filter]
          exact ⟨hst, by simpa using Nat.lt_of_le_of_ne h3.2 (fun e' => h1 e'.symm)⟩
      · intro st hst
        have hst : s.cb st = .due := hst
        refine (mem_erase_iff h.sorted).2 ⟨?_, h.due_in st hst⟩
        rintro rfl
        rw [hno] at hst; cases hst
      · intro _ st hst
        simp only [todo, List.mem_filter, decide_eq_true_eq] at hst
        exact h.todo_no hb st ((htd st).2 ⟨((mem_erase_iff h.sorted).1 hst.1).2, Nat.le_of_lt hst.2⟩)
      · intro it' e; cases e
      · intro e; cases e
      · intro e; cases e
      · intro st hst
        have := h.unl st hst
        rw [this] at hin; cases hin
    | _ => rw [hpc] at hs; cases hs
  | incr =>
    dsimp only at hs
    cases hpc : s.pc with
    | next it =>
      rw [hpc] at hs
      dsimp only at hs
      have htd : ∀ st, st ∈ todo s ↔ st ∈ s.set ∧ it < st := by intro st; simp [todo, hpc]
      cases hsu : succ it s.set with
      | none =>
        rw [hsu] at hs
        cases hs
        refine ⟨h.spec.other (by simp), h.sorted, by rw [outcomes_append, ← h.res]; simp [outcomes], h.acc, h.nd, h.disj, fun h => by simp at h, h.due_in, fun h => by simp at h,
          fun _ e => h.addin _ (hpc.trans e), fun e => h.emp (hpc.trans e), fun e => h.wk (hpc.trans e), h.unl, ?_, fun ht _ e => h.tn ht _ (hpc.trans e),
          fun ht st e => hpc.symm.trans (h.tu ht st e), h.uniq⟩
        intro ht
        exact absurd (h.tn ht it hpc) (succ_none hsu)
      | some l =>
        rw [hsu] at hs
        cases hs
        obtain ⟨hin, hl⟩ := succ_some h.sorted hsu
        have hml : ∀ st, st ∈ l ↔ st ∈ s.set ∧ it < st := by intro st; rw [hl]; simp
        have hsl : Sorted l := by rw [hl]; exact List.Pairwise.sublist List.filter_sublist h.sorted
        have htu : s.tame = true → ∀ st, s.cb st ≠ .unlocked := fun ht st hst => by
          have := h.tu ht st hst; rw [hpc] at this; cases this
        rcases loop_cases l with ⟨h1, h2⟩ | ⟨x, r, h1, h2⟩
        · refine ⟨h.spec.other (by simp), h.sorted, by rw [outcomes_append, ← h.res]; simp [outcomes], h.acc, h.nd, h.disj, ?_, h.due_in, ?_, ?_, ?_, ?_, h.unl, h.tb, ?_, ?_, h.uniq⟩
          · intro _ st hst
            rcases h.due hb st hst with hd | hd
            · exact Or.inl hd
            · have := (hml st).2 ((htd st).1 hd)
              rw [h1] at this; cases this
          · intro _ st hst; simp [todo, h2] at hst
          · intro it' e; have e : loop l = _ := e; rw [h2] at e; cases e
          · intro e; have e : loop l = _ := e; rw [h2] at e; cases e
          · intro e; have e : loop l = _ := e; rw [h2] at e; cases e
          · intro _ it' e; have e : loop l = _ := e; rw [h2] at e; cases e
          · intro ht st hst; exact absurd hst (htu ht st)
        · have hx : x ∈ s.set ∧ it < x := (hml x).1 (by rw [h1]; simp)
          have hmin : ∀ st ∈ l, x ≤ st := by
            rw [h1] at hsl ⊢
            intro st hst
            rcases List.mem_cons.1 hst with rfl | hst
            · exact Nat.le_refl _
            · exact Nat.le_of_lt ((List.pairwise_cons.1 hsl).1 st hst)
          refine ⟨h.spec.other (by simp), h.sorted, by rw [outcomes_append, ← h.res]; simp [outcomes], h.acc, h.nd, h.disj, ?_, h.due_in, ?_, ?_, ?_, ?_, h.unl, h.tb, ?_, ?_, h.uniq⟩
          · intro _ st hst
            rcases h.due hb st hst with hd | hd
            · exact Or.inl hd
            · refine Or.inr ?_
              have := (hml st).2 ((htd st).1 hd)
              simp only [todo, h2, List.mem_filter]
              exact ⟨hst, by simpa using hmin st this⟩
          · intro _ st hst
            simp only [todo, h2, List.mem_filter, decide_eq_true_eq] at hst
            exact h.todo_no hb st ((htd st).2 ⟨hst.1, Nat.lt_of_lt_of_le hx.2 hst.2⟩)
          · intro it' e
            have e : loop l = _ := e
            rw [h2] at e; cases e
            exact ⟨hx.1, h.todo_no hb x ((htd x).2 hx)⟩
          · intro e; have e : loop l = _ := e; rw [h2] at e; cases e
          · intro e; have e : loop l = _ := e; rw [h2] at e; cases e
          · intro _ it' e; have e : loop l = _ := e; rw [h2] at e; cases e
          · intro ht st hst; exact absurd hst (htu ht st)
    | _ => rw [hpc] at hs; cases hs
  | check =>
    dsimp only at hs
    cases hpc : s.pc with
    | check =>
      rw [hpc] at hs
      dsimp only at hs
      have htu : s.tame = true → ∀ st, s.cb st ≠ .unlocked := fun ht st hst => by
        have := h.tu ht st hst; rw [hpc] at this; cases this
      have htd : todo s = [] := by simp [todo, hpc]
      split at hs
      · rename_i he
        cases hs
        refine ⟨h.spec.ret ⟨h.res, h.nd, ?_⟩, h.sorted, by rw [outcomes_append, ← h.res]; simp [outcomes], h.acc, h.nd, h.disj, ?_, h.due_in, ?_, ?_, fun _ => he, ?_, h.unl, h.tb, ?_, ?_, h.uniq⟩
        · intro st; rw [h.acc st, he]; simp
        · intro _ st hst; have hst : st ∈ s.set := hst; rw [he] at hst; cases hst
        · intro _ st hst; simp [todo] at hst
        · intro it e; cases e
        · intro e; cases e
        · intro _ it e; cases e
        · intro ht st hst; exact absurd hst (htu ht st)
      · rename_i he
        cases hs
        refine ⟨h.spec.other (by simp), h.sorted, by rw [outcomes_append, ← h.res]; simp [outcomes], h.acc, h.nd, h.disj, ?_, h.due_in, ?_, ?_, ?_, ?_, h.unl, h.tb, ?_, fun _ _ _ => rfl, h.uniq⟩
        · intro _ st hst
          rcases h.due hb st hst with hd | hd
          · exact Or.inl hd
          · rw [htd] at hd; cases hd
        · intro _ st hst; simp [todo] at hst
        · intro it e; cases e
        · intro e; cases e
        · intro _ e; exact absurd e he
        · intro _ it e; cases e
    | _ => rw [hpc] at hs; cases hs
  | fire st er =>
    dsimp only at hs
    split at hs
    case isFalse => cases hs
    rename_i hd
    have hin := h.due_in st hd
    split at hs
    · rename_i hr
      rw [h.emp hr] at hin; cases hin
    · rename_i hr
      split at hs
      case isFalse => cases hs
      rename_i ht
      have ht : s.tame = true → (s.pc ≠ .next st ∧ (s.set.erase st = [] → s.pc = .blocked)) := fun h => ht.resolve_left (by rw [h]; simp)
      have hnu : ∀ x, s.cb x ≠ .unlocked := fun x hx => by rw [h.unl x hx] at hin; cases hin
      have htn : st ∉ todo s := fun hx => by rw [h.todo_no hb st hx] at hd; cases hd
      cases hs
      refine ⟨h.spec.other (by simp), erase_sorted h.sorted, by rw [outcomes_append, ← h.res]; simp [outcomes], ?_, ?_, ?_, ?_, ?_, ?_, ?_, ?_, ?_, ?_, h.tb, ?_, ?_, ?_⟩
      · intro x
        simp only [List.map_append, List.map_cons, List.map_nil, List.mem_append, List.mem_singleton, mem_erase_iff h.sorted]
        rw [h.acc x]
        by_cases e : x = st
        · subst e; simp [hin]
        · simp [e]
      · simp only [List.map_append, List.map_cons, List.map_nil, List.nodup_append]
        refine ⟨h.nd, by simp, ?_⟩
        intro a ha b hb' e
        simp only [List.mem_singleton] at hb'
        subst hb'
        subst e
        exact h.disj _ hin ha
      · intro x hx
        obtain ⟨h1, h2⟩ := (mem_erase_iff h.sorted).1 hx
        simp only [List.map_append, List.map_cons, List.map_nil, List.mem_append, List.mem_singleton, not_or]
        exact ⟨h.disj x h2, h1⟩
      · intro _ x hx
        obtain ⟨h1, h2⟩ := (mem_erase_iff h.sorted).1 hx
        rcases h.due hb x h2 with hd' | hd'
        · exact Or.inl (by simp only [upd_apply, if_neg h1]; exact hd')
        · refine Or.inr ?_
          unfold todo at hd' ⊢
          dsimp only at hd' ⊢
          cases hpc : s.pc with
          | add it => rw [hpc] at hd'; simp only [List.mem_filter] at hd' ⊢; exact ⟨hx, hd'.2⟩
          | next it => rw [hpc] at hd'; simp only [List.mem_filter] at hd' ⊢; exact ⟨hx, hd'.2⟩
          | _ => rw [hpc] at hd'; cases hd'
      · intro x hx
        simp only [upd_apply] at hx
        split at hx
        · split at hx <;> cases hx
        · rename_i e; exact (mem_erase_iff h.sorted).2 ⟨e, h.due_in x hx⟩
      · intro _ x hx
        have hx' : x ∈ todo s := by
          unfold todo at hx ⊢
          dsimp only at hx ⊢
          cases hpc : s.pc with
          | add it => rw [hpc] at hx; simp only [List.mem_filter] at hx ⊢; exact ⟨((mem_erase_iff h.sorted).1 hx.1).2, hx.2⟩
          | next it => rw [hpc] at hx; simp only [List.mem_filter] at hx ⊢; exact ⟨((mem_erase_iff h.sorted).1 hx.1).2, hx.2⟩
          | _ => rw [hpc] at hx; cases hx
        have hne : x ≠ st := fun e => htn (e ▸ hx')
        simp only [upd_apply, if_neg hne]
        exact h.todo_no hb x hx'
      · intro it hit
        obtain ⟨h1, h2⟩ := h.addin it hit
        have hne : it ≠ st := fun e => by subst e; rw [h2] at hd; cases hd
        exact ⟨(mem_erase_iff h.sorted).2 ⟨hne, h1⟩, by simp only [upd_apply, if_neg hne]; exact h2⟩
      · intro e; exact absurd e hr
      · intro _ he
        have he : s.set.erase st = [] := he
        exact ⟨st, by simp [upd_apply, he]⟩
      · intro x hx
        simp only [upd_apply] at hx
        split at hx
        · split at hx
          · assumption
          · cases hx
        · exact absurd hx (hnu x)
      · intro ht' it hit
        have hit : s.pc = .next it := hit
        refine (mem_erase_iff h.sorted).2 ⟨?_, h.tn ht' it hit⟩
        rintro rfl
        exact (ht ht').1 hit
      · intro ht' x hx
        simp only [upd_apply] at hx
        split at hx
        · split at hx
          · rename_i he; exact (ht ht').2 he
          · cases hx
        · exact absurd hx (hnu x)
      · intro x y hx hy
        simp only [upd_apply] at hx hy
        split at hx
        · split at hy
          · rename_i e1 e2; exact e1.trans e2.symm
          · exact absurd hy (hnu y)
        · exact absurd hx (hnu x)
  | notify st =>
    dsimp only at hs
    split at hs
    case isFalse => cases hs
    rename_i hu
    have he := h.unl st hu
    split at hs
    · rename_i hr
      cases hs
      refine ⟨h.spec.other (by simp), h.sorted, by rw [outcomes_append, ← h.res]; simp [outcomes], h.acc, h.nd, h.disj, fun h => by simp at h, h.due_in, fun h => by simp at h,
        h.addin, h.emp, h.wk, h.unl, ?_, h.tn, h.tu, h.uniq⟩
      intro ht
      have := h.tu ht st hu
      rw [hr] at this; cases this
    · rename_i hr
      cases hs
      have hun : ∀ x, upd s.cb st Cb.done x ≠ .unlocked := by
        intro x hx
        simp only [upd_apply] at hx
        split at hx
        · cases hx
        · rename_i e; exact e (h.uniq x st hx hu)
      refine ⟨h.spec.other (by simp), h.sorted, by rw [outcomes_append, ← h.res]; simp [outcomes], h.acc, h.nd, h.disj, ?_, ?_, ?_, ?_, ?_, ?_, ?_, h.tb, ?_, ?_, ?_⟩
      · intro _ x hx; have hx : x ∈ s.set := hx; rw [he] at hx; cases hx
      · intro x hx
        simp only [upd_apply] at hx
        split at hx
        · cases hx
        · exact h.due_in x hx
      · intro _ x hx
        exfalso
        unfold todo at hx
        dsimp only at hx
        rw [he] at hx
        split at hx <;> simp at hx
      · intro it hit
        have hit : (if s.pc = .blocked then Pc.check else s.pc) = .add it := hit
        split at hit
        · cases hit
        · have := (h.addin it hit).1; rw [he] at this; cases this
      · intro e
        have e : (if s.pc = .blocked then Pc.check else s.pc) = .returned := e
        split at e
        · cases e
        · exact h.emp e
      · intro e
        have e : (if s.pc = .blocked then Pc.check else s.pc) = .blocked := e
        split at e
        · cases e
        · rename_i hne; exact absurd e hne
      · intro x hx; exact absurd hx (hun x)
      · intro ht it e
        have e : (if s.pc = .blocked then Pc.check else s.pc) = .next it := e
        split at e
        · cases e
        · exact h.tn ht it e
      · intro _ x hx; exact absurd hx (hun x)
      · intro x _ hx; exact absurd hx (hun x)

theorem reach_inv {b : Bool} {args : List Stream} {s : State} {tr : List Obs} (h : Reach step (init b args) s tr) : Inv args s tr :=
  h.inv (fun s tr => Inv args s tr) (inv_init b args) fun _ _ _ _ _ _ hi hs => inv_step hi hs

/-! ### C57 for several streams -/

/-- Whenever the call returns, every argument (duplicates once) has reported, and the result is the list of reports, in order. -/
theorem C57_results {b : Bool} {args : List Stream} {s : State} {tr : List Obs} (h : Reach step (init b args) s tr) : Spec args tr := (reach_inv h).spec

/-- The call does not hang: if nothing can happen any more, it has returned (or behaviour was undefined). -/
theorem C57_no_hang {args : List Stream} {s : State} {tr : List Obs} (h : Reach step (init false args) s tr) (hb : s.broken = false)
    (hstuck : ∀ e, step s e = none) : s.pc = .returned := by
  have hi := reach_inv h
  have ht : s.tame = false := by
    have : ∀ {s tr}, Reach step (init false args) s tr → s.tame = false := by
      intro s tr h
      refine h.inv (fun s _ => s.tame = false) rfl ?_
      intro s tr e s' o _ hs hst
      unfold step at hst
      split at hst
      · cases hst
      cases e <;> dsimp only at hst
      all_goals (repeat' split at hst)
      all_goals first | (cases hst; done) | (cases hst; exact hs)
    exact this h
  have nb : ¬ s.broken = true := by rw [hb]; simp
  cases hpc : s.pc with
  | add it => have := hstuck .addOk; simp [step, nb, hpc] at this
  | next it =>
    have := hstuck .incr
    cases hsu : succ it s.set <;> simp [step, nb, hpc, hsu] at this
  | check =>
    have := hstuck .check
    by_cases he : s.set = [] <;> simp [step, nb, hpc, he] at this
  | blocked =>
    exfalso
    by_cases he : s.set = []
    · obtain ⟨st, hu⟩ := hi.wk hpc he
      have := hstuck (.notify st)
      simp [step, nb, hpc, hu] at this
    · obtain ⟨st, hst⟩ := List.exists_mem_of_ne_nil _ he
      rcases hi.due hb st hst with hd | hd
      · have := hstuck (.fire st 0)
        simp [step, nb, hpc, hd, ht] at this
      · simp [todo, hpc] at hd
  | returned => rfl

/-- No undefined behaviour if no registration fails, no stream calls back while the constructor's iterator is at its node, and the caller
already waits when the last stream calls back. Not covered: the other cases, which the user cannot prevent (below). -/
theorem C57_no_ub_partial {args : List Stream} {s : State} {tr : List Obs} (h : Reach step (init true args) s tr) : Obs.ub ∉ tr := by
  have key : ∀ {s tr}, Reach step (init true args) s tr → Obs.ub ∉ tr ∧ s.tame = true := by
    intro s tr h
    refine h.inv (fun s tr => Obs.ub ∉ tr ∧ s.tame = true) ⟨by simp, rfl⟩ ?_
    intro s tr e s' o hr ⟨h1, ht⟩ hs
    have hi := reach_inv hr
    have hb' : s'.tame = true → s'.broken = false := (reach_inv (hr.tail e hs)).tb
    have hsame : s'.tame = s.tame ∧ (Obs.ub ∈ o → s'.broken = true) := by
      unfold step at hs
      split at hs
      · cases hs
      cases e <;> dsimp only at hs
      all_goals (repeat' split at hs)
      all_goals first | (cases hs; done) | (cases hs; simp)
    refine ⟨?_, hsame.1.trans ht⟩
    intro hm
    rcases List.mem_append.1 hm with hm | hm
    · exact h1 hm
    · have := hb' (hsame.1.trans ht)
      rw [hsame.2 hm] at this
      cases this
  exact (key h).1

/-- Three streams, one of them given twice; one calls back early. -/
example : ∃ s, Reach step (init true [3, 1, 2, 1]) s [.registered 1, .registered 2, .called 1 0, .registered 3, .called 3 7, .called 2 0,
    .returned [(1, 0), (3, 7), (2, 0)]] :=
  ⟨_, reach_of_exec (es := [.addOk, .incr, .addOk, .fire 1 0, .incr, .addOk, .incr, .check, .fire 3 7, .fire 2 0, .notify 2, .check]) rfl⟩

/-- Whenever a registration fails, the constructor goes on with an iterator to the node it erased: undefined behaviour. -/
theorem C57_refused_is_ub {b : Bool} {args : List Stream} {s s' : State} {tr o : List Obs} {er : Status} (h : Reach step (init b args) s tr)
    (hs : step s (.addFail er) = some (s', o)) : ∃ s'', step s' .incr = some (s'', [.ub]) := by
  have hi := reach_inv h
  unfold step at hs
  split at hs
  · cases hs
  rename_i hb
  dsimp only at hs
  cases hpc : s.pc with
  | add it =>
    rw [hpc] at hs
    dsimp only at hs
    split at hs
    case isFalse => cases hs
    cases hs
    have : succ it (s.set.erase it) = none := by
      cases hsu : succ it (s.set.erase it) with
      | none => rfl
      | some l =>
        have := (succ_some (erase_sorted hi.sorted) hsu).1
        exact absurd rfl ((mem_erase_iff hi.sorted).1 this).1
    refine ⟨{ s with pc := .next it, set := s.set.erase it, res := s.res ++ [(it, er)], broken := true }, ?_⟩
    simp only [step, if_neg hb, this]
  | _ => rw [hpc] at hs; cases hs

/-- It does happen. -/
example : ∃ s, Reach step (init false [1, 2]) s [.refused 1 5, .ub] :=
  ⟨_, reach_of_exec (es := [.addFail 5, .incr]) rfl⟩

/-- A stream that calls back before the constructor has moved on. -/
theorem C57_early_callback : ∃ s, Reach step (init false [1, 2]) s [.registered 1, .called 1 0, .ub] :=
  ⟨_, reach_of_exec (es := [.addOk, .fire 1 0, .incr]) rfl⟩

/-- The last stream calls back just before the caller tests the condition: the call returns, its rendezvous object is gone, and the callback
notifies the condition variable in it. -/
theorem C57_notify_after_return : ∃ s, Reach step (init false [1, 2]) s [.registered 1, .registered 2, .called 1 0, .called 2 0, .returned [(1, 0), (2, 0)], .ub] :=
  ⟨_, reach_of_exec (es := [.addOk, .incr, .addOk, .incr, .fire 1 0, .fire 2 0, .check, .notify 2]) rfl⟩

end Many

namespace One

structure Inv (st : Stream) (s : State) (tr : List Obs) : Prop where
  spec : Spec [st] tr
  hst : s.st = st
  val : outcomes tr = s.val.toList
  fst : ∀ v, s.val = some v → v.1 = st
  due : s.cb = .due → s.val = none
  ctor : s.pc = .ctor → s.cb = .no ∧ s.val = none
  no : s.cb = .no → s.pc ≠ .ctor → s.val ≠ none
  unl : s.cb = .unlocked → s.val ≠ none
  don : s.cb = .done → s.val ≠ none ∧ s.pc ≠ .blocked
  emp : s.pc = .returned → s.val ≠ none
  wk : s.pc = .blocked → s.cb = .due ∨ s.cb = .unlocked
  tb : s.tame = true → s.broken = false
  tu : s.tame = true → s.cb = .unlocked → s.pc = .blocked

theorem inv_step {st : Stream} {s s' : State} {tr o : List Obs} {e : Event} (h : Inv st s tr) (hs : step s e = some (s', o)) :
    Inv st s' (tr ++ o) := by
  unfold step at hs
  by_cases hb : s.broken = true
  · rw [if_pos hb] at hs; cases hs
  rw [if_neg hb] at hs
  have hb : s.broken = false := by simpa using hb
  cases e with
  | addOk =>
    dsimp only at hs
    split at hs
    case isFalse => cases hs
    rename_i hpc
    cases hs
    obtain ⟨h1, h2⟩ := h.ctor hpc
    refine ⟨h.spec.other (by simp), h.hst, ?_, h.fst, fun _ => h2, ?_, ?_, ?_, ?_, ?_, ?_, h.tb, ?_⟩
    · rw [outcomes_append, h.val]; simp [outcomes]
    all_goals first | (intro e; cases e; done) | (intro _ e; cases e; done)
  | addFail er =>
    dsimp only at hs
    split at hs
    case isFalse => cases hs
    rename_i hpc
    cases hs
    obtain ⟨h1, h2⟩ := h.ctor hpc
    refine ⟨h.spec.other (by simp), h.hst, ?_, ?_, ?_, ?_, ?_, ?_, ?_, ?_, ?_, h.tb, ?_⟩
    · rw [outcomes_append, h.val, h2]; simp [outcomes]
    · intro v e; cases e; exact h.hst
    · intro e; have e : s.cb = _ := e; rw [h1] at e; cases e
    · intro e; cases e
    · intro _ _; simp
    · intro _; simp
    · intro e; have e : s.cb = _ := e; rw [h1] at e; cases e
    · intro e; cases e
    · intro e; cases e
    · intro _ e; have e : s.cb = _ := e; rw [h1] at e; cases e
  | check =>
    dsimp only at hs
    split at hs
    case isFalse => cases hs
    rename_i hpc
    cases hv : s.val with
    | some v =>
      rw [hv] at hs
      cases hs
      have hf := h.fst v hv
      refine ⟨h.spec.ret ⟨?_, by simp, by simp [hf]⟩, h.hst, ?_, fun v' e => h.fst v' (hv.trans e), fun e => ?_, ?_, ?_, ?_, ?_, ?_, ?_, h.tb, ?_⟩
      · rw [h.val, hv]; rfl
      · rw [outcomes_append, h.val, hv]; simp [outcomes]
      · have := h.due e; rw [hv] at this; cases this
      · intro e; cases e
      · intro _ _; simp
      · intro _; simp
      · intro _; exact ⟨by simp, by simp⟩
      · intro _; simp
      · intro e; cases e
      · intro ht e
        have := h.tu ht e; rw [hpc] at this; cases this
    | none =>
      rw [hv] at hs
      cases hs
      have hcb : s.cb = .due := by
        cases hc : s.cb with
        | no => exact absurd hv (h.no hc (by rw [hpc]; simp))
        | due => rfl
        | unlocked => exact absurd hv (h.unl hc)
        | done => exact absurd hv (h.don hc).1
      refine ⟨h.spec.other (by simp), h.hst, ?_, fun v' e => (by cases e), fun e => rfl, ?_, ?_, ?_, ?_, ?_, ?_, h.tb, ?_⟩
      · rw [outcomes_append, h.val, hv]; simp [outcomes]
      · intro e; cases e
      · intro e; have e : s.cb = _ := e; rw [hcb] at e; cases e
      · intro e; have e : s.cb = _ := e; rw [hcb] at e; cases e
      · intro e; have e : s.cb = _ := e; rw [hcb] at e; cases e
      · intro e; cases e
      · intro _; exact Or.inl hcb
      · intro _ e; rfl
  | fire er =>
    dsimp only at hs
    split at hs
    case isFalse => cases hs
    rename_i hd
    have hv := h.due hd
    split at hs
    · rename_i hr; exact absurd hv (h.emp hr)
    · rename_i hr
      split at hs
      case isFalse => cases hs
      rename_i ht
      cases hs
      refine ⟨h.spec.other (by simp), h.hst, ?_, ?_, ?_, ?_, ?_, ?_, ?_, ?_, ?_, h.tb, ?_⟩
      · rw [outcomes_append, h.val, hv]; simp [outcomes]
      · intro v e; cases e; exact h.hst
      · intro e; cases e
      · intro e; have := (h.ctor e).1; rw [hd] at this; cases this
      · intro e; cases e
      · intro _; simp
      · intro e; cases e
      · intro _; simp
      · intro _; exact Or.inr rfl
      · intro ht' _; exact ht.resolve_left (by rw [ht']; simp)
  | notify =>
    dsimp only at hs
    split at hs
    case isFalse => cases hs
    rename_i hu
    have hv := h.unl hu
    split at hs
    · rename_i hr
      cases hs
      refine ⟨h.spec.other (by simp), h.hst, ?_, h.fst, h.due, h.ctor, h.no, h.unl, h.don, h.emp, h.wk, ?_, h.tu⟩
      · rw [outcomes_append, h.val]; simp [outcomes]
      · intro ht; have := h.tu ht hu; rw [hr] at this; cases this
    · rename_i hr
      cases hs
      refine ⟨h.spec.other (by simp), h.hst, ?_, h.fst, ?_, ?_, ?_, ?_, ?_, fun _ => hv, ?_, h.tb, ?_⟩
      · rw [outcomes_append, h.val]; simp [outcomes]
      · intro e; cases e
      · intro e
        have e : (if s.pc = .blocked then Pc.check else s.pc) = .ctor := e
        split at e
        · cases e
        · have := (h.ctor e).1; rw [hu] at this; cases this
      · intro e; cases e
      · intro e; cases e
      · intro _
        refine ⟨hv, ?_⟩
        intro e
        have e : (if s.pc = .blocked then Pc.check else s.pc) = .blocked := e
        split at e
        · cases e
        · rename_i hne; exact hne e
      · intro e
        have e : (if s.pc = .blocked then Pc.check else s.pc) = .blocked := e
        split at e
        · cases e
        · rename_i hne; exact absurd e hne
      · intro _ e; cases e

theorem reach_inv {b : Bool} {st : Stream} {s : State} {tr : List Obs} (h : Reach step (init b st) s tr) : Inv st s tr :=
  h.inv (fun s tr => Inv st s tr) (by refine ⟨spec_nil _, rfl, rfl, ?_, ?_, ?_, ?_, ?_, ?_, ?_, ?_, ?_, ?_⟩ <;> simp [init])
    fun _ _ _ _ _ _ hi hs => inv_step hi hs

/-! ### C57 for one stream -/

theorem C57_one_results {b : Bool} {st : Stream} {s : State} {tr : List Obs} (h : Reach step (init b st) s tr) : Spec [st] tr := (reach_inv h).spec

theorem C57_one_no_hang {st : Stream} {s : State} {tr : List Obs} (h : Reach step (init false st) s tr) (hb : s.broken = false)
    (hstuck : ∀ e, step s e = none) : s.pc = .returned := by
  have hi := reach_inv h
  have ht : s.tame = false := by
    have : ∀ {s tr}, Reach step (init false st) s tr → s.tame = false := by
      intro s tr h
      refine h.inv (fun s _ => s.tame = false) rfl ?_
      intro s tr e s' o _ hs hst
      unfold step at hst
      split at hst
      · cases hst
      cases e <;> dsimp only at hst
      all_goals (repeat' split at hst)
      all_goals first | (cases hst; done) | (cases hst; exact hs)
    exact this h
  have nb : ¬ s.broken = true := by rw [hb]; simp
  cases hpc : s.pc with
  | ctor => have := hstuck .addOk; simp [step, nb, hpc] at this
  | check =>
    have := hstuck .check
    cases hv : s.val <;> simp [step, nb, hpc, hv] at this
  | blocked =>
    exfalso
    rcases hi.wk hpc with hd | hu
    · have := hstuck (.fire 0)
      simp [step, nb, hpc, hd, ht] at this
    · have := hstuck .notify
      simp [step, nb, hpc, hu] at this
  | returned => rfl

/-- No undefined behaviour if the caller already waits when the stream calls back. -/
theorem C57_one_no_ub_partial {st : Stream} {s : State} {tr : List Obs} (h : Reach step (init true st) s tr) : Obs.ub ∉ tr := by
  have key : ∀ {s tr}, Reach step (init true st) s tr → Obs.ub ∉ tr ∧ s.tame = true := by
    intro s tr h
    refine h.inv (fun s tr => Obs.ub ∉ tr ∧ s.tame = true) ⟨by simp, rfl⟩ ?_
    intro s tr e s' o hr ⟨h1, ht⟩ hs
    have hb' : s'.tame = true → s'.broken = false := (reach_inv (hr.tail e hs)).tb
    have hsame : s'.tame = s.tame ∧ (Obs.ub ∈ o → s'.broken = true) := by
      unfold step at hs
      split at hs
      · cases hs
      cases e <;> dsimp only at hs
      all_goals (repeat' split at hs)
      all_goals first | (cases hs; done) | (cases hs; simp)
    refine ⟨?_, hsame.1.trans ht⟩
    intro hm
    rcases List.mem_append.1 hm with hm | hm
    · exact h1 hm
    · have := hb' (hsame.1.trans ht)
      rw [hsame.2 hm] at this
      cases this
  exact (key h).1

example : ∃ s, Reach step (init true 4) s [.registered 4, .called 4 2, .returned [(4, 2)]] :=
  ⟨_, reach_of_exec (es := [.addOk, .check, .fire 2, .notify, .check]) rfl⟩

example : ∃ s, Reach step (init true 4) s [.refused 4 2, .returned [(4, 2)]] :=
  ⟨_, reach_of_exec (es := [.addFail 2, .check]) rfl⟩

/-- As `Many.C57_notify_after_return`. -/
theorem C57_one_notify_after_return : ∃ s, Reach step (init false 4) s [.registered 4, .called 4 0, .returned [(4, 0)], .ub] :=
  ⟨_, reach_of_exec (es := [.addOk, .fire 0, .check, .notify]) rfl⟩

end One

end Verif.Gpu
