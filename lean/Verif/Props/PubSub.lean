import Verif.PubSubInv

/-!
# Properties C120, C121, C122: the publish/subscribe server of the examples

`record s tr` (in `Verif/PubSubInv.lean`) is what can be observed about subscriber `s` since it subscribed: the messages published on its queue,
those written to its client, whether its queue was removed and whether its session has ended. `calm`: whenever a message was published (and when
the queue was removed) all messages before had been written.
-/

namespace Verif.Props.PubSub

open Verif Verif.PubSub

variable {a a' : State} {tr : List Obs} {s p : Nat} {q m : Text} {r : Rec}

/-! ## What a subscriber gets (C120) -/

/-- **C120.** A subscriber gets only messages published on its queue since it subscribed, in the order of publication, and each at most once. -/
theorem sent_in_order (h : Reach step init a tr) (hr : record s tr = some r) : r.sends.Sublist r.pubs := by
  have := reach_ok h s
  rw [hr] at this
  exact this.2.2.1

/-- What holds of C120: if every message is written before the next one is published, nothing is lost (the last message is written as soon as
the subscriber has been resumed). -/
theorem calm_complete_partial (h : Reach step init a tr) (hr : record s tr = some r) (hk : r.calm = true) (hc : r.closed = false)
    (hv : r.over = false) (hq : step a (.resume s) = none) : r.sends = r.pubs := by
  have := reach_ok h s
  rw [hr] at this
  rcases this.2.2.2 with ⟨a1, _⟩ | ⟨a1, a2, a3, a4⟩ | ⟨a1, a2, a3, a4, a5⟩ | ⟨k, a1, a2, a3, a4⟩
  · rw [hc] at a1; cases a1
  · rw [a3]; exact (a4 hk).2
  · simp only [step, a2] at hq; split at hq <;> cases hq
  · exact (a4 hk).2

/-- A buffer of `max_length` characters that holds a text. -/
def pad (m : Text) : List Nat := m ++ List.replicate (maxLength - m.length) 0

/-- Publisher 0 registers queue `[7]`, subscriber 0 subscribes. -/
def start : List Event := [.connectP 0, .readP 0 (some (pad [7])), .connectS 0, .readS 0 (some (pad [7]))]

set_option synthInstance.maxSize 2000 in
set_option synthInstance.maxHeartbeats 200000 in
/-- **C120 fails:** two messages are published one after the other, the subscriber is resumed, and the first message is lost, although the
client is connected and nothing has failed. -/
theorem message_lost : ∃ a tr r, Reach step init a tr ∧ record 0 tr = some r ∧ r.closed = false ∧ r.over = false ∧
    r.pubs = [[1], [2]] ∧ r.sends = [[2]] ∧ r.sent = [[2]] ∧ a.spc 0 = .waiting [7] ∧ step a (.resume 0) = none := by
  have h : ((exec step init (start ++ [.readP 0 (some (pad [1])), .readP 0 (some (pad [2])), .resume 0, .wrote 0 true])).map
      fun x => (x.1.spc 0, (record 0 x.2).map fun r => (r.closed, r.over, r.pubs, r.sends, r.sent))) =
      some (.waiting [7], some (false, false, [[1], [2]], [[2]], [[2]])) := by decide +kernel
  simp only [Option.map_eq_some_iff, Prod.mk.injEq] at h
  obtain ⟨⟨a, tr⟩, h1, h2, r, h3, h4⟩ := h
  exact ⟨a, tr, r, reach_of_exec h1, h3, h4.1, h4.2.1, h4.2.2.1, h4.2.2.2.1, h4.2.2.2.2, h2, by have h2 : a.spc 0 = _ := h2; simp [step, h2]⟩

/-- **C120 fails:** a publisher publishes one message and disconnects; the message is overwritten by the notice that the queue is gone, and the
session of the subscriber ends without it. -/
theorem last_message_lost : ∃ a tr r, Reach step init a tr ∧ record 0 tr = some r ∧ r.closed = true ∧ r.pubs = [[1]] ∧ r.sends = [] := by
  have h : ((exec step init (start ++ [.readP 0 (some (pad [1])), .readP 0 none, .resume 0])).map
      fun x => (record 0 x.2).map fun r => (r.closed, r.pubs, r.sends)) = some (some (true, [[1]], [])) := by decide +kernel
  simp only [Option.map_eq_some_iff, Prod.mk.injEq] at h
  obtain ⟨⟨a, tr⟩, h1, r, h3, h4⟩ := h
  exact ⟨a, tr, r, reach_of_exec h1, h3, h4.1, h4.2.1, h4.2.2⟩

/-! ## The end of a subscription (C121) -/

/-- What holds of C121: if the queue is removed when all messages have been written, then the session of the subscriber ends as soon as it has
been resumed, and its client has got all messages. -/
theorem calm_ends_partial (h : Reach step init a tr) (hr : record s tr = some r) (hk : r.calm = true) (hv : r.over = true)
    (hq : step a (.resume s) = none) : r.closed = true ∧ r.sent = r.pubs := by
  have := reach_ok h s
  rw [hr] at this
  rcases this.2.2.2 with ⟨a1, a2, a3⟩ | ⟨a1, a2, a3, a4⟩ | ⟨a1, a2, a3, a4, a5⟩ | ⟨k, a1, a2, a3, a4⟩
  · exact ⟨a1, (a3 hk hv).1⟩
  · have := (a4 hk).1; rw [hv] at this; cases this
  · simp only [step, a2] at hq; split at hq <;> cases hq
  · have := (a4 hk).1; rw [hv] at this; cases this

/-- A subscriber that waits although its queue is gone. -/
theorem waits_on {e : Event} {o : List Obs} (ho : Ok a s (some r)) (hw : a.spc s = .waiting q) (hv : r.over = true) (hc : r.closed = false)
    (hs : step a e = some (a', o)) : a'.spc s = .waiting q ∧ o.foldl (note s) (some r) = some r := by
  have hn : ∀ q l, a.queues q = some l → s ∉ l := fun q l hl hm => by have := (ho.1 q l hl hm).2.1; rw [hv] at this; cases this
  have hl : ∀ p q, (leave a p q).spc s = a.spc s := fun p q => by
    simp only [leave, unregister]; split
    · rfl
    · rename_i l hl; simp [notifyAll, hn _ l hl]
  cases e with
  | connectP p =>
    simp only [step] at hs
    split at hs <;> simp only [Option.some.injEq, Prod.mk.injEq, reduceCtorEq] at hs
    obtain ⟨rfl, rfl⟩ := hs
    exact ⟨hw, rfl⟩
  | connectS t =>
    simp only [step] at hs
    split at hs <;> simp only [Option.some.injEq, Prod.mk.injEq, reduceCtorEq] at hs
    obtain ⟨rfl, rfl⟩ := hs
    rename_i ht
    have : s ≠ t := by rintro rfl; rw [hw] at ht; cases ht
    exact ⟨by simp [this, hw], rfl⟩
  | readP p b =>
    simp only [step] at hs
    (repeat' split at hs) <;> simp only [Option.some.injEq, Prod.mk.injEq, reduceCtorEq] at hs <;> obtain ⟨rfl, rfl⟩ := hs <;>
      first
      | exact ⟨by rw [hl]; exact hw, by simp [note, hc, hv]⟩
      | exact ⟨hw, by simp [note, hc, hv]⟩
      | (rename_i l hq; exact ⟨by simp [notifyAll, hn _ l hq, hw], by simp [note, hc, hv]⟩)
  | readS t b =>
    have hne : a.spc t = .naming → s ≠ t := by rintro ht rfl; rw [hw] at ht; cases ht
    simp only [step] at hs
    (repeat' split at hs) <;> simp only [Option.some.injEq, Prod.mk.injEq, reduceCtorEq] at hs <;> obtain ⟨rfl, rfl⟩ := hs <;>
      have hst := hne (by assumption) <;> exact ⟨by simp [close, hst, hw], by simp [note, hc, Ne.symm hst]⟩
  | resume t =>
    simp only [step] at hs
    (repeat' split at hs) <;> simp only [Option.some.injEq, Prod.mk.injEq, reduceCtorEq] at hs <;> obtain ⟨rfl, rfl⟩ := hs <;>
      (rename_i ht _
       have hst : s ≠ t := by rintro rfl; rw [hw] at ht; cases ht
       exact ⟨by simp [close, hst, hw], by simp [note, hc, Ne.symm hst]⟩)
  | wrote t ok =>
    simp only [step] at hs
    (repeat' split at hs) <;> simp only [Option.some.injEq, Prod.mk.injEq, reduceCtorEq] at hs <;> obtain ⟨rfl, rfl⟩ := hs <;>
      (rename_i ht _
       have hst : s ≠ t := by rintro rfl; rw [hw] at ht; cases ht
       exact ⟨by simp [close, hst, hw], by simp [note, hc, Ne.symm hst]⟩)

theorem waits_for_ever (h : Reach step init a tr) (hr : record s tr = some r) (hw : a.spc s = .waiting q) (hv : r.over = true)
    (hc : r.closed = false) {tr' : List Obs} (h' : Reach step a a' tr') : a'.spc s = .waiting q ∧ record s (tr ++ tr') = some r := by
  induction h' with
  | refl => exact ⟨hw, by simpa using hr⟩
  | @tail b c t o e h' hs ih =>
    have ho := reach_ok (h.trans h') s
    rw [ih.2] at ho
    have := waits_on ho ih.1 hv hc hs
    refine ⟨this.1, ?_⟩
    rw [← List.append_assoc, record, List.foldl_append]
    have h2 := ih.2
    simp only [record] at h2
    rw [h2]; exact this.2

set_option synthInstance.maxSize 2000 in
set_option synthInstance.maxHeartbeats 200000 in
/-- **C121 fails:** the publisher disconnects while a message is being written to the client of the subscriber. The notice that the queue is
gone is lost, and the session of the subscriber waits for ever: whatever happens, nothing is sent to its client and its connection is not
closed. -/
theorem subscriber_hangs : ∃ a tr r, Reach step init a tr ∧ record 0 tr = some r ∧ .left 0 r.q ∈ tr ∧ r.closed = false ∧ r.sent = r.pubs ∧
    ∀ a' tr', Reach step a a' tr' → record 0 (tr ++ tr') = some r := by
  have h : ((exec step init (start ++ [.readP 0 (some (pad [1])), .resume 0, .readP 0 none, .wrote 0 true])).map
      fun x => (x.1.spc 0, decide (.left 0 [7] ∈ x.2), (record 0 x.2).map fun r => (r.q, r.closed, r.over, r.pubs, r.sent))) =
      some (.waiting [7], true, some ([7], false, true, [[1]], [[1]])) := by decide +kernel
  simp only [Option.map_eq_some_iff, Prod.mk.injEq, decide_eq_true_eq] at h
  obtain ⟨⟨a, tr⟩, h1, h2, h5, r, h3, h4⟩ := h
  have hr := reach_of_exec h1
  exact ⟨a, tr, r, hr, h3, by rw [h4.1]; exact h5, h4.2.1, by rw [h4.2.2.2.1, h4.2.2.2.2],
    fun a' tr' h' => (waits_for_ever hr h3 h2 h4.2.2.1 h4.2.1 h').2⟩

/-! ## Queues and their publishers (C122) -/

/-- A queue belongs to one publisher, and exists as long as its session. -/
def Owned (a : State) (tr : List Obs) (q : Text) : Prop :=
  (∀ p, a.ppc p = .active q → a.queues q ≠ none) ∧ (∀ p p', a.ppc p = .active q → a.ppc p' = .active q → p = p') ∧
  (∀ p m, .refused p q m ∉ tr) ∧ ∀ p, .registered p q ∈ tr → a.ppc p = .active q ∨ .left p q ∈ tr ∨ .ub ∈ tr

theorem owned_congr {o : List Obs} (h1 : a'.ppc = a.ppc) (h2 : a.queues q ≠ none → a'.queues q ≠ none) (h3 : ∀ p m, .refused p q m ∉ o)
    (h4 : ∀ p, .registered p q ∉ o) (h : Owned a tr q) : Owned a' (tr ++ o) q := by
  obtain ⟨a1, a2, a3, a4⟩ := h
  refine ⟨fun p hp => h2 (a1 p (h1 ▸ hp)), fun p p' => by rw [h1]; exact a2 p p', fun p m => by simp [a3 p m, h3 p m], fun p hp => ?_⟩
  have := a4 p (by simpa [h4 p] using hp)
  rw [h1]; simp only [List.mem_append]
  rcases this with h | h | h
  · exact .inl h
  · exact .inr (.inl (.inl h))
  · exact .inr (.inr (.inl h))

theorem unsub_queues {t : Nat} {q' : Text} (h : a.queues q ≠ none) : (close a t q').queues q ≠ none := by
  simp only [close, unsubscribe]; split
  · exact h
  · simp only [put]; split <;> simp [h]

theorem put_some {f : Text → Option (List Nat)} {q' : Text} (l : List Nat) (h : f q ≠ none) : put f q' (some l) q ≠ none := by
  simp only [put]; split
  · simp
  · exact h

theorem owned_step {e : Event} {o : List Obs} (hq : q ≠ []) (hs : step a e = some (a', o)) (hr : ∀ u, .rejected u q ∉ o) (h : Owned a tr q) :
    Owned a' (tr ++ o) q := by
  cases e with
  | connectP p =>
    simp only [step] at hs
    split at hs <;> simp only [Option.some.injEq, Prod.mk.injEq, reduceCtorEq] at hs
    obtain ⟨rfl, rfl⟩ := hs
    rename_i hn
    obtain ⟨a1, a2, a3, a4⟩ := h
    have key : ∀ p', upd a.ppc p .naming p' = .active q → a.ppc p' = .active q := fun p' h => by
      by_cases hp : p' = p
      · subst hp; simp at h
      · simpa [hp] using h
    refine ⟨fun p' h => a1 p' (key p' h), fun p' p'' h h' => a2 p' p'' (key p' h) (key p'' h'), by simpa using a3, fun p' h => ?_⟩
    rcases a4 p' (by simpa using h) with h | h
    · refine .inl ?_
      have : p' ≠ p := by rintro rfl; rw [hn] at h; cases h
      simpa [this] using h
    · exact .inr (by simpa using h)
  | connectS t =>
    simp only [step] at hs
    split at hs <;> simp only [Option.some.injEq, Prod.mk.injEq, reduceCtorEq] at hs
    obtain ⟨rfl, rfl⟩ := hs
    exact owned_congr rfl id (by simp) (by simp) h
  | readP p b =>
    obtain ⟨a1, a2, a3, a4⟩ := h
    -- the session of `p` ends
    have fin : ∀ {b : State} {o : List Obs} {q' : Text}, b.ppc = upd a.ppc p .done → (q' ≠ q → a.queues q ≠ none → b.queues q ≠ none) →
        (q' = q → a.ppc p = .active q) → (∀ p m, .refused p q m ∉ o) → (∀ p', .registered p' q ∉ o) →
        (a.ppc p = .active q → .left p q ∈ o ∨ .ub ∈ o) → Owned b (tr ++ o) q := by
      intro b o q' h1 h2 h3 h4 h5 h6
      have key : ∀ p', b.ppc p' = .active q → p' ≠ p ∧ a.ppc p' = .active q := fun p' h => by
        rw [h1] at h
        by_cases hp : p' = p
        · subst hp; simp at h
        · exact ⟨hp, by simpa [hp] using h⟩
      refine ⟨fun p' h => ?_, fun p' p'' h h' => a2 p' p'' (key p' h).2 (key p'' h').2, fun p' m => by simp [a3 p' m, h4 p' m], fun p' h => ?_⟩
      · obtain ⟨k1, k2⟩ := key p' h
        refine h2 (fun he => k1 (a2 p' p k2 (h3 he))) (a1 p' k2)
      · simp only [List.mem_append] at h ⊢
        rcases a4 p' (by simpa [h5 p'] using h) with h | h | h
        · by_cases hp : p' = p
          · subst hp
            rcases h6 h with h | h
            · exact .inr (.inl (.inr h))
            · exact .inr (.inr (.inr h))
          · exact .inl (by rw [h1]; simpa [hp] using h)
        · exact .inr (.inl (.inl h))
        · exact .inr (.inr (.inl h))
    have lq : ∀ q', (leave a p q').ppc = upd a.ppc p .done ∧ (q' ≠ q → a.queues q ≠ none → (leave a p q').queues q ≠ none) := fun q' => by
      unfold leave unregister; split
      · exact ⟨rfl, fun _ h => h⟩
      · exact ⟨rfl, fun h1 h2 => by simpa [put, Ne.symm h1, notifyAll] using h2⟩
    simp only [step] at hs
    (repeat' split at hs) <;> simp only [Option.some.injEq, Prod.mk.injEq, reduceCtorEq] at hs <;> obtain ⟨rfl, rfl⟩ := hs
    · rename_i hn
      exact fin (q' := []) (lq _).1 (lq _).2 (fun h => absurd h.symm hq) (by simp) (by simp) (by simp [hn])
    · rename_i hn _ _ _
      exact fin (q' := []) rfl (fun _ h => h) (fun h => absurd h.symm hq) (by simp) (by simp) (by simp [hn])
    · rename_i q' _ _ _ _
      have hne : q' ≠ q := by rintro rfl; exact hr p (by simp)
      have hn : a.ppc p = .naming := by assumption
      exact fin (q' := q') (lq _).1 (lq _).2 (fun h => absurd h hne) (by simp) (by simp) (by simp [hn])
    · rename_i q' _ _ hq'
      have hn : a.ppc p = .naming := by assumption
      have key : ∀ p', upd a.ppc p (.active q') p' = .active q → (p' = p ∧ q' = q) ∨ (p' ≠ p ∧ a.ppc p' = .active q) := fun p' h => by
        by_cases hp : p' = p
        · subst hp; simp at h; exact .inl ⟨rfl, h⟩
        · exact .inr ⟨hp, by simpa [hp] using h⟩
      refine ⟨fun p' h => ?_, fun p' p'' h h' => ?_, by simpa using a3, fun p' h => ?_⟩
      · simp only [put]; split
        · simp
        · rename_i hne; rcases key p' h with ⟨_, h⟩ | ⟨_, h⟩
          · exact absurd h.symm hne
          · exact a1 p' h
      · rcases key p' h with ⟨k1, k2⟩ | ⟨k1, k2⟩ <;> rcases key p'' h' with ⟨k3, k4⟩ | ⟨k3, k4⟩
        · rw [k1, k3]
        · subst k2; exact absurd hq' (a1 p'' k4)
        · subst k4; exact absurd hq' (a1 p' k2)
        · exact a2 p' p'' k2 k4
      · simp only [List.mem_append, List.mem_singleton, Obs.registered.injEq, reduceCtorEq, or_false] at h ⊢
        rcases h with h | ⟨rfl, rfl⟩
        · rcases a4 p' h with h | h
          · refine .inl ?_
            have : p' ≠ p := by rintro rfl; rw [hn] at h; cases h
            simpa [this] using h
          · exact .inr h
        · exact .inl (by simp)
    · rename_i q' hn
      exact fin (q' := q') (lq _).1 (lq _).2 (by rintro rfl; exact hn) (by simp) (by simp) (by simp [hn, eq_comm])
    · rename_i q' _ hn _ _ _
      exact fin (q' := []) rfl (fun _ h => h) (fun h => absurd h.symm hq) (by simp) (by simp) (by simp)
    · rename_i q' _ hn _ _ m _ _ hq'
      have hne : q' ≠ q := by rintro rfl; exact a1 p hn hq'
      exact fin (q' := q') (lq _).1 (lq _).2 (fun h => absurd h hne) (by simp [Ne.symm hne]) (by simp) (by simp [hn, hne])
    · exact owned_congr rfl id (by simp) (by simp) ⟨a1, a2, a3, a4⟩
  | readS t b =>
    have cl : ∀ q', (close a t q').ppc = a.ppc := fun q' => by simp only [close, unsubscribe]; split <;> rfl
    simp only [step] at hs
    (repeat' split at hs) <;> simp only [Option.some.injEq, Prod.mk.injEq, reduceCtorEq] at hs <;> obtain ⟨rfl, rfl⟩ := hs
    · exact owned_congr (cl _) unsub_queues (by simp) (by simp) h
    · exact owned_congr rfl id (by simp) (by simp) h
    · exact owned_congr (cl _) unsub_queues (by simp) (by simp) h
    · exact owned_congr (a := a) rfl (put_some _) (by simp) (by simp) h
  | resume t =>
    have cl : ∀ q', (close a t q').ppc = a.ppc := fun q' => by simp only [close, unsubscribe]; split <;> rfl
    simp only [step] at hs
    (repeat' split at hs) <;> simp only [Option.some.injEq, Prod.mk.injEq, reduceCtorEq] at hs <;> obtain ⟨rfl, rfl⟩ := hs
    · exact owned_congr (cl _) unsub_queues (by simp) (by simp) h
    · exact owned_congr rfl id (by simp) (by simp) h
  | wrote t ok =>
    have cl : ∀ q', (close a t q').ppc = a.ppc := fun q' => by simp only [close, unsubscribe]; split <;> rfl
    simp only [step] at hs
    (repeat' split at hs) <;> simp only [Option.some.injEq, Prod.mk.injEq, reduceCtorEq] at hs <;> obtain ⟨rfl, rfl⟩ := hs
    · exact owned_congr rfl id (by simp) (by simp) h
    · exact owned_congr (cl _) unsub_queues (by simp) (by simp) h

theorem reach_owned (hq : q ≠ []) (h : Reach step init a tr) (hr : ∀ u, .rejected u q ∉ tr) : Owned a tr q := by
  induction h with
  | refl => exact ⟨by simp [init], by simp [init], by simp, by simp⟩
  | tail e _ hs ih =>
    exact owned_step hq hs (fun u hu => hr u (List.mem_append_right _ hu)) (ih fun u hu => hr u (List.mem_append_left _ hu))

/-- What holds of C122: as long as no second publisher names the queue (and its name is not empty), every message of its publisher is
published, and a subscriber that names it is subscribed. -/
theorem owner_keeps_partial (hq : q ≠ []) (h : Reach step init a tr) (hr : ∀ u, .rejected u q ∉ tr) :
    (∀ p m, .refused p q m ∉ tr) ∧ ∀ p, .registered p q ∈ tr → .left p q ∉ tr → .ub ∉ tr →
      ∀ s b, a.spc s = .naming → b.length = maxLength → text b = some q → ∃ a', step a (.readS s (some b)) = some (a', [.subscribed s q]) := by
  obtain ⟨a1, a2, a3, a4⟩ := reach_owned hq h hr
  refine ⟨a3, fun p h1 h2 h3 s b hs hb ht => ?_⟩
  have hp : a.ppc p = .active q := by
    rcases a4 p h1 with h | h | h
    · exact h
    · exact absurd h h2
    · exact absurd h h3
  cases hl : a.queues q with
  | none => exact absurd hl (a1 p hp)
  | some l => exact ⟨_, by simp only [step, hs, hb, if_true, ht, hl]; rfl⟩

/-- **C122 fails:** a second publisher that names an existing queue is rejected, and its session removes the queue of the first one, whose next
message is refused and whose session ends. -/
theorem foreign_queue_removed : ∃ a, Reach step init a [.registered 0 [7], .rejected 1 [7], .left 1 [7], .refused 0 [7] [1], .left 0 [7]] := by
  have h : ((exec step init [.connectP 0, .readP 0 (some (pad [7])), .connectP 1, .readP 1 (some (pad [7])), .readP 0 (some (pad [1]))]).map
      fun x => x.2) = some [.registered 0 [7], .rejected 1 [7], .left 1 [7], .refused 0 [7] [1], .left 0 [7]] := by decide +kernel
  simp only [Option.map_eq_some_iff] at h
  obtain ⟨⟨a, tr⟩, h1, h2⟩ := h
  simp only at h2
  subst h2
  exact ⟨a, reach_of_exec h1⟩

/-- **C122 fails:** a publisher that disconnects before it has named a queue removes the queue with the empty name. -/
theorem empty_queue_removed : ∃ a, Reach step init a [.registered 0 [], .left 1 [], .refused 0 [] [1], .left 0 []] := by
  have h : ((exec step init [.connectP 0, .readP 0 (some (pad [])), .connectP 1, .readP 1 none, .readP 0 (some (pad [1]))]).map
      fun x => x.2) = some [.registered 0 [], .left 1 [], .refused 0 [] [1], .left 0 []] := by decide +kernel
  simp only [Option.map_eq_some_iff] at h
  obtain ⟨⟨a, tr⟩, h1, h2⟩ := h
  simp only at h2
  subst h2
  exact ⟨a, reach_of_exec h1⟩

/-- A client that ends its text with a null character. -/
def Event.ends : Event → Prop
  | .readP _ (some b) | .readS _ (some b) => 0 ∈ b
  | _ => True

/-- What holds of C122: the server does not read behind the end of an array if all clients end their texts with a null character. -/
theorem no_ub_partial {es : List Event} (h : exec step init es = some (a, tr)) (he : ∀ e ∈ es, Event.ends e) : .ub ∉ tr := by
  have one : ∀ {a a' : State} {e : Event} {o : List Obs}, Event.ends e → step a e = some (a', o) → .ub ∉ o := by
    intro a a' e o he hs
    cases e <;> simp only [step] at hs <;> (repeat' split at hs) <;>
      simp only [Option.some.injEq, Prod.mk.injEq, reduceCtorEq] at hs <;> obtain ⟨rfl, rfl⟩ := hs <;> simp_all [Event.ends, text]
  have all : ∀ (es : List Event) {a a' : State} {tr : List Obs}, (∀ e ∈ es, Event.ends e) → exec step a es = some (a', tr) → .ub ∉ tr := by
    intro es
    induction es with
    | nil => intro a a' tr _ h; simp only [exec, Option.some.injEq, Prod.mk.injEq] at h; rw [← h.2]; simp
    | cons e es ih =>
      intro a a' tr he h
      simp only [exec] at h
      split at h
      · cases h
      · rename_i s1 o1 h1
        split at h
        · cases h
        · rename_i s2 o2 h2
          simp only [Option.some.injEq, Prod.mk.injEq] at h
          rw [← h.2]
          simp only [List.mem_append, not_or]
          exact ⟨one (he e (by simp)) h1, ih (fun e h => he e (by simp [h])) h2⟩
  exact all es he h

/-- **C122 fails:** a message that fills the buffer makes the server read behind its end. -/
theorem full_message_ub : ∃ a tr, Reach step init a tr ∧ .ub ∈ tr := by
  have h : ((exec step init [.connectP 0, .readP 0 (some (pad [7])), .readP 0 (some (List.replicate maxLength 1))]).map
      fun x => x.2) = some [.registered 0 [7], .ub] := by decide +kernel
  simp only [Option.map_eq_some_iff] at h
  obtain ⟨⟨a, tr⟩, h1, h2⟩ := h
  exact ⟨a, tr, reach_of_exec h1, by simp only at h2; rw [h2]; simp⟩

/-! ## Examples -/

set_option synthInstance.maxSize 2000 in
set_option synthInstance.maxHeartbeats 200000 in
-- `sent_in_order`, `calm_complete_partial`: two messages, each written before the next
example : ∃ a tr r, Reach step init a tr ∧ record 0 tr = some r ∧ r.calm = true ∧ r.closed = false ∧ r.over = false ∧
    step a (.resume 0) = none ∧ r.pubs = [[1], [2]] := by
  have h : ((exec step init (start ++ [.readP 0 (some (pad [1])), .resume 0, .wrote 0 true, .readP 0 (some (pad [2])), .resume 0])).map
      fun x => (x.1.spc 0, (record 0 x.2).map fun r => (r.calm, r.closed, r.over, r.pubs))) =
      some (.writing [7] [2], some (true, false, false, [[1], [2]])) := by decide +kernel
  simp only [Option.map_eq_some_iff, Prod.mk.injEq] at h
  obtain ⟨⟨a, tr⟩, h1, h2, r, h3, h4⟩ := h
  exact ⟨a, tr, r, reach_of_exec h1, h3, h4.1, h4.2.1, h4.2.2.1, by have h2 : a.spc 0 = _ := h2; simp [step, h2], h4.2.2.2⟩

set_option synthInstance.maxSize 2000 in
set_option synthInstance.maxHeartbeats 200000 in
-- `calm_ends_partial`: a message is written, then the publisher leaves
example : ∃ a tr r, Reach step init a tr ∧ record 0 tr = some r ∧ r.calm = true ∧ r.over = true ∧ step a (.resume 0) = none ∧ r.pubs = [[1]] := by
  have h : ((exec step init (start ++ [.readP 0 (some (pad [1])), .resume 0, .wrote 0 true, .readP 0 none, .resume 0])).map
      fun x => (x.1.spc 0, (record 0 x.2).map fun r => (r.calm, r.over, r.pubs))) = some (.done, some (true, true, [[1]])) := by decide +kernel
  simp only [Option.map_eq_some_iff, Prod.mk.injEq] at h
  obtain ⟨⟨a, tr⟩, h1, h2, r, h3, h4⟩ := h
  exact ⟨a, tr, r, reach_of_exec h1, h3, h4.1, h4.2.1, by have h2 : a.spc 0 = _ := h2; simp [step, h2], h4.2.2⟩

set_option synthInstance.maxSize 2000 in
set_option synthInstance.maxHeartbeats 200000 in
-- `owner_keeps_partial`, `no_ub_partial`: a publisher with a queue, and a subscriber that is about to name it
example : ∃ a tr es, exec step init es = some (a, tr) ∧ (∀ e ∈ es, Event.ends e) ∧ (∀ u, .rejected u [7] ∉ tr) ∧ .registered 0 [7] ∈ tr ∧
    .left 0 [7] ∉ tr ∧ .ub ∉ tr ∧ a.spc 1 = .naming ∧ (pad [7]).length = maxLength ∧ text (pad [7]) = some [7] := by
  have h : ((exec step init (start ++ [.readP 0 (some (pad [1])), .connectS 1])).map fun x => (x.1.spc 1, x.2)) =
      some (.naming, [.registered 0 [7], .subscribed 0 [7], .published 0 [7] [1]]) := by decide +kernel
  simp only [Option.map_eq_some_iff, Prod.mk.injEq] at h
  obtain ⟨⟨a, tr⟩, h1, h2, h3⟩ := h
  simp only at h3
  subst h3
  refine ⟨a, _, _, h1, ?_, by simp, by simp, by simp, by simp, h2, by decide +kernel, by decide +kernel⟩
  intro e he
  simp only [start, List.cons_append, List.nil_append, List.mem_cons, List.not_mem_nil, or_false] at he
  have h7 : 0 ∈ pad [7] := by decide +kernel
  have h1 : 0 ∈ pad [1] := by decide +kernel
  rcases he with rfl | rfl | rfl | rfl | rfl | rfl <;> simp [Event.ends, h7, h1]

end Verif.Props.PubSub
