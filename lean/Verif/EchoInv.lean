import Verif.Echo

/-!
# Invariants of the echo server
-/

namespace Verif.Echo

/-- The replies to client `i`: iteration and data. -/
def replies (i : Nat) : List Obs → List (Nat × List Nat)
  | [] => []
  | .reply i' k d :: l => if i' = i then (k, d) :: replies i l else replies i l
  | _ :: l => replies i l

@[simp] theorem replies_append (i : Nat) (l l' : List Obs) : replies i (l ++ l') = replies i l ++ replies i l' := by
  induction l with
  | nil => rfl
  | cons o l ih => cases o <;> simp only [replies, List.cons_append, ih] <;> (try split) <;> simp

/-- The acceptor is closed. -/
def Obs.isCloses : Obs → Bool
  | .closes _ => true
  | _ => false

/-- Iteration, connection, and what is still to be written. -/
def CPc.conn : CPc → Option (Nat × Nat × List Nat)
  | .writing k c rest => some (k, c, rest)
  | .reading k c => some (k, c, [])
  | _ => none

/-- Iterations done. -/
def CPc.count (its : Nat) : CPc → Option Nat
  | .top k => some k
  | .writing k _ _ => some k
  | .reading k _ => some k
  | .waiting | .done => some its
  | .quit => none

def SPc.rest : SPc → List Nat
  | .writing rest => rest
  | _ => []

/-- What is on a connection is what is left of the message. -/
structure Link (P : Prog) (a : State) (i k c : Nat) (rest : List Nat) : Prop where
  old : c < a.next
  iter : k < P.its
  here : a.gone c = false
  pre : (a.down c) <+: P.msg i k
  all : a.ses c ≠ .done → a.down c ++ (a.ses c).rest ++ a.up c ++ rest = P.msg i k
  wait : a.ses c = .new → c ∈ a.backlog

/-- Connections. -/
structure InvL (P : Prog) (a : State) : Prop where
  link : ∀ i k c rest, (a.cli i).conn = some (k, c, rest) → Link P a i k c rest
  rest : ∀ i k c, a.cli i = .writing k c [] → P.msg i k = []
  srest : ∀ c, a.ses c ≠ .writing []
  uniq : ∀ i j k k' c r r', (a.cli i).conn = some (k, c, r) → (a.cli j).conn = some (k', c, r') → i = j
  fresh : ∀ c, a.next ≤ c → a.ses c = .new ∧ a.up c = [] ∧ a.down c = [] ∧ a.gone c = false
  back : ∀ c, c ∈ a.backlog → a.ses c = .new ∧ c < a.next
  bnd : a.backlog.Nodup
  new : ∀ c, a.ses c = .new → a.down c = []

/-- Replies. -/
structure InvR (P : Prog) (a : State) (tr : List Obs) : Prop where
  top : ∀ i k, a.cli i = .top k → k ≤ P.its
  rep : ∀ i k, (a.cli i).count P.its = some k → (replies i tr).map Prod.fst = List.range k
  repq : ∀ i, ∃ k, (replies i tr).map Prod.fst = List.range k
  data : ∀ i k d, (k, d) ∈ replies i tr → d ≠ [] ∧ d <+: P.msg i k

/-- The barrier and the acceptor. -/
structure InvB (P : Prog) (a : State) (tr : List Obs) : Prop where
  arr : ∀ i, i ∈ a.arrived ↔ a.cli i = .waiting ∨ a.cli i = .done
  arrn : ∀ i, i ∈ a.arrived → i < P.n
  nd : a.arrived.Nodup
  opn : a.opn = false ↔ (a.arrived.length = P.n ∧ a.arrived ≠ [])
  live : a.stopped = true → a.opn = true → .fault ∈ tr
  stop : .stop ∈ tr ↔ a.stopped = true
  cls : ∀ i, .closes i ∈ tr → a.opn = false
  one : (tr.filter Obs.isCloses).length = if a.opn then 0 else 1
  fin : ∀ i, .finished i ∈ tr ↔ a.cli i = .done
  out : ∀ i, P.n ≤ i → a.cli i = .top 0

/-- Without faults. -/
structure InvF (a : State) (tr : List Obs) : Prop where
  run : .fault ∉ tr → a.crashed = false
  quit : .fault ∉ tr → ∀ i, a.cli i ≠ .quit
  gone : .fault ∉ tr → ∀ c, a.ses c = .done → a.gone c = true

variable {P : Prog} {a a' : State} {tr o : List Obs} {e : Event}

theorem arrived_le (h1 : ∀ i, i ∈ a.arrived → i < P.n) (h2 : a.arrived.Nodup) : a.arrived.length ≤ P.n := by
  have h : a.arrived.Subset (List.range P.n) := fun i hi => List.mem_range.2 (h1 i hi)
  simpa using h2.length_le_of_subset h

theorem f_step (h : InvF a tr) (hl : InvL P a) (hs : step P a e = some (a', o)) : InvF a' (tr ++ o) := by
  obtain ⟨run, quit, gone⟩ := h
  have key : ∀ i k c, a.cli i = .reading k c → a.gone c = false := fun i k c h => (hl.link i k c [] (by simp [h, CPc.conn])).here
  clear hl
  simp only [step, crash] at hs
  (repeat' split at hs) <;> simp only [Option.some.injEq, Prod.mk.injEq, reduceCtorEq] at hs <;> obtain ⟨rfl, rfl⟩ := hs <;> constructor <;> grind [upd_apply]

theorem b_step (h : InvB P a tr) (hs : step P a e = some (a', o)) : InvB P a' (tr ++ o) := by
  obtain ⟨arr, arrn, nd, opn, live, stop, cls, one, fin, out⟩ := h
  have le := arrived_le arrn nd
  have le' : ∀ i, i ∉ a.arrived → i < P.n → a.arrived.length + 1 ≤ P.n := fun i h1 h2 =>
    arrived_le (a := { a with arrived := i :: a.arrived }) (by simpa using ⟨h2, arrn⟩) (List.nodup_cons.2 ⟨h1, nd⟩)
  simp only [step, crash] at hs
  (repeat' split at hs) <;> simp only [Option.some.injEq, Prod.mk.injEq, reduceCtorEq] at hs <;> obtain ⟨rfl, rfl⟩ := hs <;> constructor <;>
    first | assumption | grind [upd_apply, Obs.isCloses]

theorem r_cread {i j : Nat} (h : InvR P a tr) (hl : InvL P a) (hs : step P a (.cread i j) = some (a', o)) : InvR P a' (tr ++ o) := by
  obtain ⟨top, rep, repq, data⟩ := h
  simp only [step, crash] at hs
  (repeat' split at hs) <;> simp only [Option.some.injEq, Prod.mk.injEq, reduceCtorEq] at hs <;> obtain ⟨rfl, rfl⟩ := hs
  rename_i k c hc hj
  have lk := hl.link i k c [] (by simp [hc, CPc.conn])
  have hr : (replies i (tr ++ [.reply i k ((a.down c).take j)])).map Prod.fst = List.range (k + 1) := by
    simp [replies, rep i k (by simp [hc, CPc.count]), List.range_succ]
  have ho : ∀ i', i' ≠ i → replies i' (tr ++ [.reply i k ((a.down c).take j)]) = replies i' tr := fun i' h => by
    simp [replies, Ne.symm h]
  refine ⟨fun i' k' h => ?_, fun i' k' h => ?_, fun i' => ?_, fun i' k' d h => ?_⟩
  · by_cases hi : i' = i
    · subst hi; simp at h; have := lk.iter; omega
    · exact top i' k' (by simpa [hi] using h)
  · by_cases hi : i' = i
    · subst hi; simp [CPc.count] at h; subst h; exact hr
    · rw [ho i' hi]; exact rep i' k' (by simpa [hi] using h)
  · by_cases hi : i' = i
    · subst hi; exact ⟨_, hr⟩
    · rw [ho i' hi]; exact repq i'
  · by_cases hi : i' = i
    · subst hi
      simp only [replies_append, List.mem_append] at h
      rcases h with h | h
      · exact data _ _ _ h
      · simp [replies] at h
        obtain ⟨rfl, rfl⟩ := h
        refine ⟨fun h => ?_, (List.take_prefix _ _).trans lk.pre⟩
        have := congrArg List.length h
        simp at this
        obtain ⟨h1, h2, _⟩ := hj
        rcases this with h0 | h0
        · omega
        · rw [h0] at h2; simp at h2; omega
    · rw [ho i' hi] at h; exact data i' k' d h

theorem r_step (h : InvR P a tr) (hl : InvL P a) (hs : step P a e = some (a', o)) : InvR P a' (tr ++ o) := by
  by_cases he : ∃ i j, e = .cread i j
  · obtain ⟨i, j, rfl⟩ := he; exact r_cread h hl hs
  obtain ⟨top, rep, repq, data⟩ := h
  clear hl
  simp only [step, crash] at hs
  (repeat' split at hs) <;> simp only [Option.some.injEq, Prod.mk.injEq, reduceCtorEq] at hs <;> obtain ⟨rfl, rfl⟩ := hs <;> first
    | (exfalso; exact he ⟨_, _, rfl⟩)
    | (constructor <;>
        first | assumption | (intro _; simpa [replies] using repq _) | grind [upd_apply, CPc.conn, CPc.count, replies, replies_append])

theorem link_iff {i k c : Nat} {rest : List Nat} : Link P a i k c rest ↔ c < a.next ∧ k < P.its ∧ a.gone c = false ∧ (a.down c) <+: P.msg i k ∧
    (a.ses c ≠ .done → a.down c ++ (a.ses c).rest ++ a.up c ++ rest = P.msg i k) ∧ (a.ses c = .new → c ∈ a.backlog) :=
  ⟨fun ⟨a, b, c, d, e, f⟩ => ⟨a, b, c, d, e, f⟩, fun ⟨a, b, c, d, e, f⟩ => ⟨a, b, c, d, e, f⟩⟩

theorem take_drop_nil {l : List Nat} {j : Nat} (h : l.drop j = []) : l.take j = l := by
  have := List.take_append_drop j l
  rw [h] at this; simpa using this

theorem l_connect {i : Nat} {b : Bool} (h : InvL P a) (hs : step P a (.connect i b) = some (a', o)) : InvL P a' := by
  obtain ⟨link, rest, srest, uniq, fresh, back, bnd, new⟩ := h
  simp only [step, crash] at hs
  (repeat' split at hs) <;> simp only [Option.some.injEq, Prod.mk.injEq, reduceCtorEq] at hs <;> obtain ⟨rfl, rfl⟩ := hs
  · rename_i k hc hk _ _
    have key : ∀ i' k' c' r', (upd a.cli i (.writing k a.next (P.msg i k)) i').conn = some (k', c', r') →
        (i' = i ∧ k' = k ∧ c' = a.next ∧ r' = P.msg i k) ∨ (i' ≠ i ∧ (a.cli i').conn = some (k', c', r') ∧ c' < a.next) := fun i' k' c' r' h => by
      by_cases hi : i' = i
      · subst hi; simp [CPc.conn] at h; exact .inl ⟨rfl, h.1.symm, h.2.1.symm, h.2.2.symm⟩
      · rw [upd_other _ _ hi] at h; exact .inr ⟨hi, h, (link _ _ _ _ h).old⟩
    obtain ⟨f1, f2, f3, f4⟩ := fresh a.next (Nat.le_refl _)
    refine ⟨fun i' k' c' r' h => ?_, fun i' k' c' h => ?_, srest, fun i' j' k' k'' c' r' r'' h h' => ?_, fun c' h => fresh c' (Nat.le_of_succ_le h), fun c' h => ?_, ?_, new⟩
    · rcases key i' k' c' r' h with ⟨rfl, rfl, rfl, rfl⟩ | ⟨hi, h, hlt⟩
      · exact ⟨Nat.lt_succ_self _, hk.2, f4, by simp [f3], by simp [f1, f2, f3, SPc.rest], by simp⟩
      · have := link _ _ _ _ h
        exact ⟨Nat.lt_succ_of_lt this.old, this.iter, this.here, this.pre, this.all, fun h => List.mem_append_left _ (this.wait h)⟩
    · by_cases hi : i' = i
      · subst hi; simp at h; obtain ⟨rfl, _, h⟩ := h; exact h
      · simp only [upd_other _ _ hi] at h; exact rest _ _ _ h
    · rcases key _ _ _ _ h with ⟨rfl, _, hc', _⟩ | ⟨hi, h, hlt⟩ <;> rcases key _ _ _ _ h' with ⟨rfl, _, hc'', _⟩ | ⟨hi', h', hlt'⟩
      · rfl
      · omega
      · omega
      · exact uniq _ _ _ _ _ _ _ h h'
    · simp only [List.mem_append, List.mem_singleton] at h
      rcases h with h | rfl
      · exact ⟨(back c' h).1, Nat.lt_succ_of_lt (back c' h).2⟩
      · exact ⟨f1, Nat.lt_succ_self _⟩
    · refine List.nodup_append.2 ⟨bnd, by simp, fun x hx y hy => ?_⟩
      simp at hy; subst hy
      have := (back x hx).2; omega
  · exact ⟨fun i k c r h => by
      obtain ⟨b1, b2, b3, b4, b5, b6⟩ := link i k c r h; exact ⟨b1, b2, b3, b4, b5, b6⟩, rest, srest, uniq, fresh, back, bnd, new⟩

theorem l_cpush {i j : Nat} (h : InvL P a) (hs : step P a (.cpush i j) = some (a', o)) : InvL P a' := by
  obtain ⟨link, rest, srest, uniq, fresh, back, bnd, new⟩ := h
  simp only [step] at hs
  split at hs
  · cases hs
  split at hs
  · cases hs
  split at hs
  case h_2 => cases hs
  rename_i k c r hc
  split at hs
  case isFalse => cases hs
  rename_i hj
  simp only [Option.some.injEq, Prod.mk.injEq] at hs
  obtain ⟨rfl, rfl⟩ := hs
  have hcn : (a.cli i).conn = some (k, c, r) := by simp [hc, CPc.conn]
  have lk := link _ _ _ _ hcn
  have key : ∀ i' k' c' r', (upd a.cli i (if r.drop j = [] then .reading k c else .writing k c (r.drop j)) i').conn = some (k', c', r') →
      (i' = i ∧ k' = k ∧ c' = c ∧ r' = r.drop j) ∨ (i' ≠ i ∧ (a.cli i').conn = some (k', c', r') ∧ c' ≠ c) := fun i' k' c' r' h => by
    by_cases hi : i' = i
    · subst hi
      rw [upd_same] at h
      split at h
      · rename_i hd; simp [CPc.conn] at h; exact .inl ⟨rfl, h.1.symm, h.2.1.symm, by rw [hd]; exact h.2.2⟩
      · simp [CPc.conn] at h; exact .inl ⟨rfl, h.1.symm, h.2.1.symm, h.2.2.symm⟩
    · rw [upd_other _ _ hi] at h
      refine .inr ⟨hi, h, ?_⟩
      rintro rfl; exact hi (uniq _ _ _ _ _ _ _ h hcn)
  refine ⟨fun i' k' c' r' h => ?_, fun i' k' c' h => ?_, srest, fun i' j' k' k'' c' r' r'' h h' => ?_, fun c' h => ?_, back, bnd, new⟩
  · rcases key _ _ _ _ h with ⟨rfl, rfl, rfl, rfl⟩ | ⟨hi, h, hne⟩
    · refine ⟨lk.old, lk.iter, lk.here, lk.pre, fun h => ?_, lk.wait⟩
      rw [← lk.all h]; simp
    · have := link _ _ _ _ h
      refine ⟨this.old, this.iter, this.here, this.pre, fun h => ?_, this.wait⟩
      simp only [upd_other _ _ hne]; exact this.all h
  · by_cases hi : i' = i
    · subst hi; simp only [upd_same] at h; split at h
      · cases h
      · rename_i hd; simp only [CPc.writing.injEq] at h; exact absurd h.2.2 hd
    · simp only [upd_other _ _ hi] at h; exact rest _ _ _ h
  · rcases key _ _ _ _ h with ⟨rfl, _, hc', _⟩ | ⟨hi, h, hlt⟩ <;> rcases key _ _ _ _ h' with ⟨rfl, _, hc'', _⟩ | ⟨hi', h', hlt'⟩
    · rfl
    · exact absurd hc' hlt'
    · exact absurd hc'' hlt
    · exact uniq _ _ _ _ _ _ _ h h'
  · have hne : c' ≠ c := by rintro rfl; have := lk.old; simp only at h; omega
    simp only [upd_other _ _ hne]; exact fresh c' h

theorem l_sread {c j : Nat} (h : InvL P a) (hs : step P a (.sread c j) = some (a', o)) : InvL P a' := by
  obtain ⟨link, rest, srest, uniq, fresh, back, bnd, new⟩ := h
  simp only [step, crash] at hs
  (repeat' split at hs) <;> simp only [Option.some.injEq, Prod.mk.injEq, reduceCtorEq] at hs <;> obtain ⟨rfl, rfl⟩ := hs
  rename_i hc hj
  have hlt : c < a.next := Nat.lt_of_not_le fun h => by rw [(fresh c h).1] at hc; cases hc
  refine ⟨fun i' k' c' r' h => ?_, rest, fun c' h => ?_, uniq, fun c' h => ?_, fun c' h => ?_, bnd, fun c' h => ?_⟩
  · have lk := link _ _ _ _ h
    refine ⟨lk.old, lk.iter, lk.here, lk.pre, fun h => ?_, fun h => ?_⟩
    · by_cases hne : c' = c
      · subst hne
        have := lk.all (by simp [hc])
        simp only [upd_same, SPc.rest, hc, List.append_nil] at this ⊢
        rw [← this]; simp
      · simp only [upd_other _ _ hne] at h ⊢; exact lk.all h
    · by_cases hne : c' = c
      · subst hne; simp at h
      · simp only [upd_other _ _ hne] at h; exact lk.wait h
  · by_cases hne : c' = c
    · subst hne
      simp only [upd_same, SPc.writing.injEq] at h
      have := congrArg List.length h
      simp only [List.length_take, List.length_nil] at this
      omega
    · simp only [upd_other _ _ hne] at h; exact srest _ h
  · have hne : c' ≠ c := by rintro rfl; simp only at h; omega
    simp only [upd_other _ _ hne]; exact fresh c' h
  · have := back c' h
    have hne : c' ≠ c := by rintro rfl; rw [hc] at this; cases this.1
    simp only [upd_other _ _ hne]; exact this
  · by_cases hne : c' = c
    · subst hne; simp at h
    · simp only [upd_other _ _ hne] at h; exact new _ h

theorem l_spush {c j : Nat} (h : InvL P a) (hs : step P a (.spush c j) = some (a', o)) : InvL P a' := by
  obtain ⟨link, rest, srest, uniq, fresh, back, bnd, new⟩ := h
  simp only [step] at hs
  split at hs
  · cases hs
  split at hs
  · cases hs
  split at hs
  case h_2 => cases hs
  rename_i r hc
  split at hs
  case isFalse => cases hs
  rename_i hj
  simp only [Option.some.injEq, Prod.mk.injEq] at hs
  obtain ⟨rfl, rfl⟩ := hs
  have hlt : c < a.next := Nat.lt_of_not_le fun h => by rw [(fresh c h).1] at hc; cases hc
  have hn : ∀ x : SPc, x = (if r.drop j = [] then .reading else .writing (r.drop j)) →
      x.rest = r.drop j ∧ x ≠ .new ∧ x ≠ .done ∧ x ≠ .writing [] := fun x hx => by
    split at hx <;> subst hx
    · rename_i h; simp [SPc.rest, h]
    · rename_i h; simp [SPc.rest, h]
  obtain ⟨n1, n2, n3, n4⟩ := hn _ rfl
  refine ⟨fun i' k' c' r' h => ?_, rest, fun c' h => ?_, uniq, fun c' h => ?_, fun c' h => ?_, bnd, fun c' h => ?_⟩
  · have lk := link _ _ _ _ h
    by_cases hne : c' = c
    · subst hne
      have := lk.all (by simp [hc])
      simp only [hc, SPc.rest] at this
      refine ⟨lk.old, lk.iter, lk.here, ?_, fun h => ?_, fun h => ?_⟩
      · simp only [upd_same]
        rw [← this]
        exact ⟨r.drop j ++ a.up c' ++ r', by simp only [List.append_assoc]; rw [← List.append_assoc (r.take j), List.take_append_drop]⟩
      · simp only [upd_same, n1]
        rw [← this]; simp
      · simp only [upd_same] at h; exact absurd h n2
    · refine ⟨lk.old, lk.iter, lk.here, ?_, fun h => ?_, fun h => ?_⟩
      · simp only [upd_other _ _ hne]; exact lk.pre
      · simp only [upd_other _ _ hne] at h ⊢; exact lk.all h
      · simp only [upd_other _ _ hne] at h; exact lk.wait h
  · by_cases hne : c' = c
    · subst hne
      simp only [upd_same] at h; exact n4 h
    · simp only [upd_other _ _ hne] at h; exact srest _ h
  · have hne : c' ≠ c := by rintro rfl; simp only at h; omega
    simp only [upd_other _ _ hne]; exact fresh c' h
  · have := back c' h
    have hne : c' ≠ c := by rintro rfl; rw [hc] at this; cases this.1
    simp only [upd_other _ _ hne]; exact this
  · by_cases hne : c' = c
    · subst hne; simp only [upd_same] at h; exact absurd h n2
    · simp only [upd_other _ _ hne] at h ⊢; exact new _ h

theorem l_sfail {c : Nat} (h : InvL P a) (hs : step P a (.sfail c) = some (a', o)) : InvL P a' := by
  obtain ⟨link, rest, srest, uniq, fresh, back, bnd, new⟩ := h
  simp only [link_iff] at link
  simp only [step, crash] at hs
  (repeat' split at hs) <;> simp only [Option.some.injEq, Prod.mk.injEq, reduceCtorEq] at hs <;> obtain ⟨rfl, rfl⟩ := hs
  all_goals constructor <;> (try simp only [link_iff]) <;> first | assumption | grind [upd_apply, CPc.conn, SPc.rest]

theorem l_step (h : InvL P a) (hs : step P a e = some (a', o)) : InvL P a' := by
  have h' := h
  obtain ⟨link, rest, srest, uniq, fresh, back, bnd, new⟩ := h
  have oldw : ∀ i k c r, a.cli i = .writing k c r → c < a.next := fun i k c r h => (link i k c r (by simp [h, CPc.conn])).old
  have oldr : ∀ i k c, a.cli i = .reading k c → c < a.next := fun i k c h => (link i k c [] (by simp [h, CPc.conn])).old
  simp only [link_iff] at link
  cases e with
  | connect i ok => exact l_connect h' hs
  | cpush i j => exact l_cpush h' hs
  | cwfail i eof =>
    simp only [step, crash] at hs
    (repeat' split at hs) <;> simp only [Option.some.injEq, Prod.mk.injEq, reduceCtorEq] at hs <;> obtain ⟨rfl, rfl⟩ := hs <;> constructor <;> (try simp only [link_iff]) <;>
      first | assumption | grind [upd_apply, CPc.conn, SPc.rest]
  | cread i j =>
    simp only [step, crash] at hs
    (repeat' split at hs) <;> simp only [Option.some.injEq, Prod.mk.injEq, reduceCtorEq] at hs <;> obtain ⟨rfl, rfl⟩ := hs <;> constructor <;> (try simp only [link_iff]) <;>
      first | assumption | grind [upd_apply, CPc.conn, SPc.rest]
  | ceof i =>
    simp only [step, crash] at hs
    (repeat' split at hs) <;> simp only [Option.some.injEq, Prod.mk.injEq, reduceCtorEq] at hs <;> obtain ⟨rfl, rfl⟩ := hs <;> constructor <;> (try simp only [link_iff]) <;>
      first | assumption | grind [upd_apply, CPc.conn, SPc.rest]
  | crfail i =>
    simp only [step, crash] at hs
    (repeat' split at hs) <;> simp only [Option.some.injEq, Prod.mk.injEq, reduceCtorEq] at hs <;> obtain ⟨rfl, rfl⟩ := hs <;> constructor <;> (try simp only [link_iff]) <;>
      first | assumption | grind [upd_apply, CPc.conn, SPc.rest]
  | arrive i =>
    simp only [step, crash] at hs
    (repeat' split at hs) <;> simp only [Option.some.injEq, Prod.mk.injEq, reduceCtorEq] at hs <;> obtain ⟨rfl, rfl⟩ := hs <;> constructor <;> (try simp only [link_iff]) <;>
      first | assumption | grind [upd_apply, CPc.conn, SPc.rest]
  | pass i =>
    simp only [step, crash] at hs
    (repeat' split at hs) <;> simp only [Option.some.injEq, Prod.mk.injEq, reduceCtorEq] at hs <;> obtain ⟨rfl, rfl⟩ := hs <;> constructor <;> (try simp only [link_iff]) <;>
      first | assumption | grind [upd_apply, CPc.conn, SPc.rest]
  | accept =>
    simp only [step, crash] at hs
    (repeat' split at hs) <;> simp only [Option.some.injEq, Prod.mk.injEq, reduceCtorEq] at hs <;> obtain ⟨rfl, rfl⟩ := hs <;> constructor <;> (try simp only [link_iff]) <;>
      first | assumption | grind [upd_apply, CPc.conn, SPc.rest]
  | afail =>
    simp only [step, crash] at hs
    (repeat' split at hs) <;> simp only [Option.some.injEq, Prod.mk.injEq, reduceCtorEq] at hs <;> obtain ⟨rfl, rfl⟩ := hs <;> constructor <;> (try simp only [link_iff]) <;>
      first | assumption | grind [upd_apply, CPc.conn, SPc.rest]
  | abort =>
    simp only [step, crash] at hs
    (repeat' split at hs) <;> simp only [Option.some.injEq, Prod.mk.injEq, reduceCtorEq] at hs <;> obtain ⟨rfl, rfl⟩ := hs <;> constructor <;> (try simp only [link_iff]) <;>
      first | assumption | grind [upd_apply, CPc.conn, SPc.rest]
  | sread c j => exact l_sread h' hs
  | spush c j => exact l_spush h' hs
  | seof c =>
    simp only [step, crash] at hs
    (repeat' split at hs) <;> simp only [Option.some.injEq, Prod.mk.injEq, reduceCtorEq] at hs <;> obtain ⟨rfl, rfl⟩ := hs <;> constructor <;> (try simp only [link_iff]) <;>
      first | assumption | grind [upd_apply, CPc.conn, SPc.rest]
  | sfail c => exact l_sfail h' hs

theorem reach_inv (h : Reach (step P) init a tr) : InvL P a ∧ InvR P a tr ∧ InvB P a tr ∧ InvF a tr := by
  induction h with
  | refl =>
    refine ⟨?_, ?_, ?_, ?_⟩ <;> constructor <;> simp [init, CPc.conn, CPc.count, replies]
  | tail e _ hs ih => exact ⟨l_step ih.1 hs, r_step ih.2.1 ih.1 hs, b_step ih.2.2.1 hs, f_step ih.2.2.2 ih.1 hs⟩

end Verif.Echo
