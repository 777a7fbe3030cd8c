import Verif.PubSub

/-!
# What a subscriber of the publish/subscribe server gets: record and invariant
-/

namespace Verif.PubSub

/-- What can be observed about a subscriber since it subscribed. -/
structure Rec where
  q      : Text         -- the queue
  pubs   : List Text    -- the messages published on it, until the queue is removed or the session ends
  sends  : List Text    -- the messages that the session has begun to write to its client
  sent   : List Text    -- those of which the write has ended
  over   : Bool         -- a publisher session that named this queue has ended, which removes the queue
  closed : Bool         -- the session has ended
  calm   : Bool         -- whenever something was published (and when the queue was removed), all messages before had been written

/-- The record of subscriber `s`, kept with the observations. -/
def note (s : Nat) : Option Rec → Obs → Option Rec
  | none, .subscribed s' q => if s' = s then some ⟨q, [], [], [], false, false, true⟩ else none
  | none, _ => none
  | some r, o =>
    if r.closed then some r else
    match o with
    | .published _ q m => if q = r.q ∧ r.over = false then some { r with pubs := r.pubs ++ [m], calm := r.calm && decide (r.sent = r.pubs) } else some r
    | .left _ q => if q = r.q ∧ r.over = false then some { r with over := true, calm := r.calm && decide (r.sent = r.pubs) } else some r
    | .sends s' m => if s' = s then some { r with sends := r.sends ++ [m] } else some r
    | .sent s' m => if s' = s then some { r with sent := r.sent ++ [m] } else some r
    | .closed s' => if s' = s then some { r with closed := true } else some r
    | _ => some r

def record (s : Nat) (tr : List Obs) : Option Rec := tr.foldl (note s) none

/-- Where a subscriber is. -/
def Where (a : State) (s : Nat) (r : Rec) : Prop :=
  (r.closed = true ∧ a.spc s = .done ∧ (r.calm = true → r.over = true → r.sent = r.pubs ∧ r.sends = r.pubs)) ∨
  (r.closed = false ∧ a.spc s = .waiting r.q ∧ r.sends = r.sent ∧ (r.calm = true → r.over = false ∧ r.sent = r.pubs)) ∨
  (r.closed = false ∧ a.spc s = .woken r.q ∧ r.sends = r.sent ∧ (a.data s = fini ∨ (r.sends ++ [a.data s]).Sublist r.pubs) ∧
    (r.calm = true → (r.over = true → a.data s = fini ∧ r.sent = r.pubs) ∧ (r.over = false → r.pubs = r.sent ++ [a.data s]))) ∨
  (∃ m, r.closed = false ∧ a.spc s = .writing r.q m ∧ r.sends = r.sent ++ [m] ∧ (r.calm = true → r.over = false ∧ r.sends = r.pubs))

def Ok (a : State) (s : Nat) : Option Rec → Prop
  | none => (a.spc s = .new ∨ a.spc s = .naming ∨ a.spc s = .done) ∧ ∀ q l, a.queues q = some l → s ∉ l
  | some r => (∀ q l, a.queues q = some l → s ∈ l → q = r.q ∧ r.over = false ∧ r.closed = false) ∧
    (r.over = false → r.closed = false → ∃ l, a.queues r.q = some l ∧ s ∈ l) ∧ r.sends.Sublist r.pubs ∧ Where a s r

theorem put_none {f : Text → Option (List Nat)} {q q' : Text} {l : List Nat} (h : put f q none q' = some l) : f q' = some l := by
  simp only [put] at h; split at h
  · cases h
  · exact h

theorem ok_init (s : Nat) : Ok init s none := by simp [Ok, init]

variable {a a' : State} {s s' p : Nat} {q m : Text} {r : Rec} {l : List Nat} {h : Option Rec}

theorem ok_congr (h1 : a'.queues = a.queues) (h2 : a'.spc s = a.spc s) (h3 : a'.data s = a.data s) (ho : Ok a s h) : Ok a' s h := by
  cases h <;> simp only [Ok, Where, h1, h2, h3] at ho ⊢ <;> exact ho

/-- The queue `q` is removed. -/
theorem ok_left (ho : Ok a s h) : Ok (unregister a q) s (note s h (.left p q)) := by
  cases h with
  | none =>
    simp only [Ok, note] at ho ⊢
    unfold unregister
    split
    · exact ho
    · rename_i l hl
      have := ho.2 q l hl
      simp only [notifyAll, this, if_false]
      exact ⟨ho.1, fun q' l' h => ho.2 q' l' (put_none h)⟩
  | some r =>
    obtain ⟨h1, h2, h3, h4⟩ := ho
    simp only [note]
    by_cases hc : r.closed = true
    · simp only [hc, if_true]
      unfold unregister
      split
      · exact ⟨h1, h2, h3, h4⟩
      · rename_i l hl
        have hn : s ∉ l := fun hm => by have := (h1 q l hl hm).2.2; simp [hc] at this
        refine ⟨?_, by simp [hc], h3, ?_⟩
        · exact fun q' l' h => h1 q' l' (put_none h)
        · simpa [Where, notifyAll, hn] using h4
    · simp only [hc, if_false]
      by_cases hq : q = r.q ∧ r.over = false
      · obtain ⟨rfl, ho⟩ := hq
        obtain ⟨l, hl, hm⟩ := h2 ho (by simpa using hc)
        simp only [ho, and_self, if_true, unregister, hl]
        refine ⟨?_, by simp, h3, ?_⟩
        · intro q' l'; simp only [put]; split
          · simp
          · rename_i hne; intro h5 h6; exact absurd (h1 q' l' h5 h6).1 hne
        · simp only [Where, notifyAll, hm, if_true] at h4 ⊢
          grind [SPc.notify]
      · simp only [hq, if_false]
        unfold unregister
        split
        · exact ⟨h1, h2, h3, h4⟩
        · rename_i l hl
          have hn : s ∉ l := fun hm => by have := h1 q l hl hm; exact hq ⟨this.1, this.2.1⟩
          refine ⟨?_, ?_, h3, ?_⟩
          · exact fun q' l' h => h1 q' l' (put_none h)
          · intro h5 h6
            have : r.q ≠ q := fun h => hq ⟨h.symm, h5⟩
            simp only [put, this, if_false]; exact h2 h5 h6
          · simpa [Where, notifyAll, hn] using h4

theorem ok_published (hl : a.queues q = some l) (ho : Ok a s h) : Ok (notifyAll a l m) s (note s h (.published p q m)) := by
  cases h with
  | none =>
    simp only [Ok, note] at ho ⊢
    have := ho.2 q l hl
    simp only [notifyAll, this, if_false]
    exact ho
  | some r =>
    obtain ⟨h1, h2, h3, h4⟩ := ho
    simp only [note]
    by_cases hc : r.closed = true
    · have hn : s ∉ l := fun hm => by have := (h1 q l hl hm).2.2; simp [hc] at this
      simp only [hc, if_true]
      exact ⟨h1, h2, h3, by simpa [Where, notifyAll, hn] using h4⟩
    · simp only [hc, if_false]
      by_cases hq : q = r.q ∧ r.over = false
      · obtain ⟨rfl, ho⟩ := hq
        obtain ⟨l', hl', hm⟩ := h2 ho (by simpa using hc)
        rw [hl] at hl'; cases hl'
        simp only [ho, and_self, if_true]
        have h5 : (r.sends ++ [m]).Sublist (r.pubs ++ [m]) := h3.append (List.Sublist.refl _)
        refine ⟨fun q' l' a b => ⟨(h1 q' l' a b).1, rfl, by simpa using hc⟩, fun _ _ => ⟨l, hl, hm⟩, h3.trans (List.sublist_append_left _ _), ?_⟩
        simp only [Where, notifyAll, hm, if_true] at h4 ⊢
        have hcontra : ∀ {x : List Text} {y : Text}, x ≠ x ++ [y] := fun h => by have := congrArg List.length h; simp at this
        rcases h4 with ⟨a1, _⟩ | ⟨a1, a2, a3, a4⟩ | ⟨a1, a2, a3, a4, a5⟩ | ⟨k, a1, a2, a3, a4⟩
        · exact absurd a1 hc
        · refine .inr (.inr (.inl ⟨by simp [a1], by simp [a2, SPc.notify], a3, .inr h5, fun hk => ⟨by simp, fun _ => ?_⟩⟩))
          simp only [Bool.and_eq_true, decide_eq_true_eq] at hk
          rw [hk.2]
        · refine .inr (.inr (.inl ⟨by simp [a1], by simp [a2, SPc.notify], a3, .inr h5, fun hk => ?_⟩))
          simp only [Bool.and_eq_true, decide_eq_true_eq] at hk
          have := (a5 hk.1).2 ho
          rw [hk.2] at this; exact absurd this hcontra
        · refine .inr (.inr (.inr ⟨k, by simp [a1], by simp [a2, SPc.notify], a3, fun hk => ?_⟩))
          simp only [Bool.and_eq_true, decide_eq_true_eq] at hk
          have := (a4 hk.1).2
          rw [a3, hk.2] at this; exact absurd this.symm hcontra
      · have hn : s ∉ l := fun hm => by have := h1 q l hl hm; exact hq ⟨this.1, this.2.1⟩
        simp only [hq, if_false]
        exact ⟨h1, h2, h3, by simpa [Where, notifyAll, hn] using h4⟩

/-- Subscriber `s'` is taken out of a queue. -/
theorem ok_unsubscribe (hs : s ≠ s') (ho : Ok a s h) : Ok (unsubscribe a s' q) s h := by
  unfold unsubscribe
  split
  · exact ho
  · rename_i l hl
    cases h with
    | none =>
      refine ⟨ho.1, fun q' l' => ?_⟩
      simp only [put]; split
      · rename_i hq; subst hq; intro h; simp only [Option.some.injEq] at h; subst h; have := ho.2 _ l hl; grind
      · exact ho.2 q' l'
    | some r =>
      obtain ⟨h1, h2, h3, h4⟩ := ho
      refine ⟨fun q' l' => ?_, fun h5 h6 => ?_, h3, h4⟩
      · simp only [put]; split
        · rename_i hq; subst hq; intro h; simp only [Option.some.injEq] at h; subst h; have := h1 _ l hl; grind
        · exact h1 q' l'
      · obtain ⟨l', h7, h8⟩ := h2 h5 h6
        simp only [put]; split
        · rename_i hq; rw [hq, hl] at h7; cases h7; exact ⟨_, rfl, by simp [h8, hs]⟩
        · exact ⟨l', h7, h8⟩

theorem unsubscribe_spc : (unsubscribe a s q).spc = a.spc ∧ (unsubscribe a s q).data = a.data := by
  unfold unsubscribe; split <;> exact ⟨rfl, rfl⟩

theorem unregister_ppc : (unregister a q).ppc = a.ppc := by
  unfold unregister; split <;> rfl

/-- Another subscriber ends. -/
theorem ok_close_other (hs : s ≠ s') (ho : Ok a s h) : Ok (close a s' q) s h :=
  ok_congr (a := unsubscribe a s' q) rfl (by simp [close, hs, unsubscribe_spc.1]) rfl (ok_unsubscribe hs ho)

theorem ok_close_none (hn : a.spc s = .naming) (ho : Ok a s none) : Ok (close a s q) s none := by
  refine ⟨.inr (.inr (by simp [close])), fun q' l' => ?_⟩
  simp only [close, unsubscribe]
  split
  · exact ho.2 q' l'
  · rename_i l hl
    simp only [put]; split
    · rename_i hq; subst hq; intro h; simp only [Option.some.injEq] at h; subst h; simp
    · exact ho.2 q' l'

theorem ok_close_self (ho : Ok a s (some r)) (hc : r.closed = false) (hw : r.calm = true → r.over = true → r.sent = r.pubs ∧ r.sends = r.pubs) :
    Ok (close a s r.q) s (some { r with closed := true }) := by
  obtain ⟨h1, h2, h3, h4⟩ := ho
  refine ⟨fun q' l' => ?_, by simp, h3, .inl ⟨rfl, by simp [close], hw⟩⟩
  simp only [close, unsubscribe]
  split
  · rename_i hq; intro h5 h6; have := (h1 q' l' h5 h6).1; subst this; rw [hq] at h5; cases h5
  · rename_i l hl
    simp only [put]; split
    · rename_i hq; subst hq; intro h; simp only [Option.some.injEq] at h; subst h; simp
    · rename_i hq; intro h5 h6; exact absurd (h1 q' l' h5 h6).1 hq

theorem ok_step {e : Event} {o : List Obs} (hs : step a e = some (a', o)) (ho : Ok a s h) : Ok a' s (o.foldl (note s) h) := by
  have skip : ∀ {b : State} {o : Obs} {h : Option Rec}, Ok b s h → note s h o = h → Ok b s (note s h o) := fun h1 h2 => by rw [h2]; exact h1
  cases e with
  | connectP p =>
    simp only [step] at hs
    split at hs <;> simp only [Option.some.injEq, Prod.mk.injEq, reduceCtorEq] at hs
    obtain ⟨rfl, rfl⟩ := hs
    exact ok_congr rfl rfl rfl ho
  | connectS t =>
    simp only [step] at hs
    split at hs <;> simp only [Option.some.injEq, Prod.mk.injEq, reduceCtorEq] at hs
    obtain ⟨rfl, rfl⟩ := hs
    rename_i hn
    by_cases ht : s = t
    · subst ht
      cases h with
      | none => exact ⟨by simp, ho.2⟩
      | some r => have := ho.2.2.2; simp [Where, hn] at this
    · exact ok_congr (a := a) rfl (by simp [ht]) rfl ho
  | readP p b =>
    have hl : ∀ q h, Ok a s h → Ok (leave a p q) s (note s h (.left p q)) := fun q h ho =>
      ok_congr (a := unregister a q) rfl rfl rfl (ok_left ho)
    have hrej : ∀ q, note s h (.rejected p q) = h := fun q => by cases h <;> simp [note]
    have href : ∀ q m, note s h (.refused p q m) = h := fun q m => by cases h <;> simp [note]
    have hreg : ∀ q, note s h (.registered p q) = h := fun q => by cases h <;> simp [note]
    have hub : note s h .ub = h := by cases h <;> simp [note]
    simp only [step] at hs
    (repeat' split at hs) <;> simp only [Option.some.injEq, Prod.mk.injEq, reduceCtorEq] at hs <;> obtain ⟨rfl, rfl⟩ := hs <;> simp only [List.foldl]
    · exact hl _ _ ho
    · rw [hub]; exact ok_congr rfl rfl rfl ho
    · rw [hrej]; exact hl _ _ ho
    · rename_i hq
      rw [hreg]
      cases h with
      | none =>
        refine ⟨ho.1, fun q' l' => ?_⟩
        simp only [put]; split
        · intro h; simp only [Option.some.injEq] at h; subst h; simp
        · exact ho.2 q' l'
      | some r =>
        obtain ⟨h1, h2, h3, h4⟩ := ho
        refine ⟨fun q' l' => ?_, fun h5 h6 => ?_, h3, h4⟩
        · simp only [put]; split
          · intro h; simp only [Option.some.injEq] at h; subst h; simp
          · exact h1 q' l'
        · obtain ⟨l', h7, h8⟩ := h2 h5 h6
          simp only [put]; split
          · rename_i he; rw [he, hq] at h7; cases h7
          · exact ⟨l', h7, h8⟩
    · exact hl _ _ ho
    · rw [hub]; exact ok_congr rfl rfl rfl ho
    · rw [href]; exact hl _ _ ho
    · rename_i hq; exact ok_published hq ho
  | readS t b =>
    have hub : note s h .ub = h := by cases h <;> simp [note]
    have hunk : ∀ q, note s h (.unknown t q) = h := fun q => by cases h <;> simp [note]
    have hnone : a.spc t = .naming → s = t → h = none := fun hn ht => by
      subst ht
      cases h with
      | none => rfl
      | some r => have := ho.2.2.2; simp [Where, hn] at this
    have hcl : a.spc t = .naming → ∀ q, Ok (close a t q) s (note s h (.closed t)) := fun hn q => by
      by_cases ht : s = t
      · have := hnone hn ht; subst this; subst ht; exact ok_close_none hn ho
      · have : note s h (.closed t) = h := by cases h <;> simp [note, Ne.symm ht]
        rw [this]; exact ok_close_other ht ho
    simp only [step] at hs
    (repeat' split at hs) <;> simp only [Option.some.injEq, Prod.mk.injEq, reduceCtorEq] at hs <;> obtain ⟨rfl, rfl⟩ := hs <;> simp only [List.foldl]
    · rename_i hn; exact hcl hn _
    · rename_i hn _ _ _
      rw [hub]
      by_cases ht : s = t
      · have := hnone hn ht; subst this; subst ht; exact ⟨.inr (.inr (by simp)), ho.2⟩
      · exact ok_congr (a := a) rfl (by simp [ht]) rfl ho
    · rw [hunk]; exact hcl (by assumption) _
    · rename_i q _ _ l hl
      by_cases ht : s = t
      · have := hnone (by assumption) ht; subst this; subst ht
        have hn : note s none (.subscribed s q) = some ⟨q, [], [], [], false, false, true⟩ := by simp [note]
        rw [hn]
        refine ⟨fun q' l' => ?_, fun _ _ => ⟨s :: l, by simp [put], by simp⟩, .slnil, .inr (.inl ⟨rfl, by simp, rfl, by simp⟩)⟩
        simp only [put]; split
        · rename_i he; intro _ _; simp [he]
        · intro h5 h6; exact absurd h6 (ho.2 q' l' h5)
      · have hn : note s h (.subscribed t q) = h := by cases h <;> simp [note, Ne.symm ht]
        rw [hn]
        cases h with
        | none =>
          refine ⟨by simpa [ht] using ho.1, fun q' l' => ?_⟩
          simp only [put]; split
          · intro h; simp only [Option.some.injEq] at h; subst h; simp [ht, ho.2 _ l hl]
          · exact ho.2 q' l'
        | some r =>
          obtain ⟨h1, h2, h3, h4⟩ := ho
          refine ⟨fun q' l' => ?_, fun h5 h6 => ?_, h3, by simpa [Where, ht] using h4⟩
          · simp only [put]; split
            · rename_i he; intro h; simp only [Option.some.injEq] at h; subst h; subst he
              intro hm; exact h1 _ l hl (by simpa [ht] using hm)
            · exact h1 q' l'
          · obtain ⟨l', h7, h8⟩ := h2 h5 h6
            simp only [put]; split
            · rename_i he; rw [he, hl] at h7; cases h7; exact ⟨_, rfl, by simp [h8]⟩
            · exact ⟨l', h7, h8⟩
  | resume t =>
    simp only [step] at hs
    (repeat' split at hs) <;> simp only [Option.some.injEq, Prod.mk.injEq, reduceCtorEq] at hs <;> obtain ⟨rfl, rfl⟩ := hs <;> simp only [List.foldl]
    · rename_i q hw hd
      by_cases ht : s = t
      · subst ht
        cases h with
        | none => simp [Ok, hw] at ho
        | some r =>
          have h4 := ho.2.2.2
          simp only [Where, hw, reduceCtorEq, false_and, and_false, false_or, or_false, exists_false, SPc.woken.injEq] at h4
          obtain ⟨a1, rfl, a3, a4, a5⟩ := h4
          have hn : note s (some r) (.closed s) = some { r with closed := true } := by simp [note, a1]
          rw [hn]
          exact ok_close_self ho a1 (fun hk hv => by have := (a5 hk).1 hv; exact ⟨this.2, by rw [a3]; exact this.2⟩)
      · have : note s h (.closed t) = h := by cases h <;> simp [note, Ne.symm ht]
        rw [this]; exact ok_close_other ht ho
    · rename_i q hw hd
      by_cases ht : s = t
      · subst ht
        cases h with
        | none => simp [Ok, hw] at ho
        | some r =>
          obtain ⟨h1, h2, h3, h4⟩ := ho
          simp only [Where, hw, reduceCtorEq, false_and, and_false, false_or, or_false, exists_false, SPc.woken.injEq] at h4
          obtain ⟨a1, rfl, a3, a4, a5⟩ := h4
          have hn : note s (some r) (.sends s (a.data s)) = some { r with sends := r.sends ++ [a.data s] } := by simp [note, a1]
          rw [hn]
          refine ⟨h1, h2, a4.resolve_left hd, .inr (.inr (.inr ⟨a.data s, a1, by simp, by simp [a3], fun hk => ?_⟩))⟩
          have := a5 hk
          cases hv : r.over with
          | true => exact absurd (this.1 hv).1 hd
          | false => exact ⟨rfl, by simp only; rw [a3, this.2 hv]⟩
      · have : note s h (.sends t (a.data t)) = h := by cases h <;> simp [note, Ne.symm ht]
        rw [this]; exact ok_congr (a := a) rfl (by simp [ht]) rfl ho
  | wrote t ok =>
    simp only [step] at hs
    (repeat' split at hs) <;> simp only [Option.some.injEq, Prod.mk.injEq, reduceCtorEq] at hs <;> obtain ⟨rfl, rfl⟩ := hs <;> simp only [List.foldl]
    · rename_i q m hw hk
      by_cases ht : s = t
      · subst ht
        cases h with
        | none => simp [Ok, hw] at ho
        | some r =>
          obtain ⟨h1, h2, h3, h4⟩ := ho
          simp only [Where, hw, reduceCtorEq, false_and, and_false, false_or, or_false, SPc.writing.injEq] at h4
          obtain ⟨m', a1, ⟨rfl, rfl⟩, a3, a4⟩ := h4
          have hn : note s (some r) (.sent s m) = some { r with sent := r.sent ++ [m] } := by simp [note, a1]
          rw [hn]
          exact ⟨h1, h2, h3, .inr (.inl ⟨a1, by simp, a3, fun hk => ⟨(a4 hk).1, by simp only; rw [← a3]; exact (a4 hk).2⟩⟩)⟩
      · have : note s h (.sent t m) = h := by cases h <;> simp [note, Ne.symm ht]
        rw [this]; exact ok_congr (a := a) rfl (by simp [ht]) rfl ho
    · rename_i q m hw hk
      by_cases ht : s = t
      · subst ht
        cases h with
        | none => simp [Ok, hw] at ho
        | some r =>
          have h4 := ho.2.2.2
          simp only [Where, hw, reduceCtorEq, false_and, and_false, false_or, or_false, SPc.writing.injEq] at h4
          obtain ⟨m', a1, ⟨rfl, rfl⟩, a3, a4⟩ := h4
          have hn : note s (some r) (.closed s) = some { r with closed := true } := by simp [note, a1]
          rw [hn]
          exact ok_close_self ho a1 (fun hk hv => by rw [(a4 hk).1] at hv; cases hv)
      · have : note s h (.closed t) = h := by cases h <;> simp [note, Ne.symm ht]
        rw [this]; exact ok_close_other ht ho

theorem reach_ok {tr : List Obs} (h : Reach step init a tr) (s : Nat) : Ok a s (record s tr) := by
  induction h with
  | refl => exact ok_init s
  | tail e _ hs ih => rw [record, List.foldl_append]; exact ok_step hs ih

end Verif.PubSub
