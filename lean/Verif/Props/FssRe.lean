import Verif.FssRe
import Verif.Props.Fss

/-!
# Cleanup functions that use fiber-specific pointers (C70), or wait (C71)
-/

namespace Verif.FssRe

open Verif.Fss (Addr Ptr Map find insert assign erase getData Sorted find_none find_insert find_assign find_erase sorted_insert keys_assign erase_sublist)

/-! ## Specification: every pointer is cleaned up once, before it is replaced or the fiber ends -/

/-- The pointers of the fiber that are neither cleaned up nor released. -/
abbrev Spec := Addr → Ptr

def after (l : Spec) : Obs → Spec
  | .stored a v => upd l a v
  | .released a _ => upd l a 0
  | .cleanup a _ => upd l a 0
  | _ => l

def ok (l : Spec) : Obs → Prop
  | .stored a _ => l a = 0
  | .released a r => r = l a
  | .cleanup a v => v = l a
  | .exited => ∀ a, l a = 0
  | .ub => False

def Runs : Spec → List Obs → Prop
  | _, [] => True
  | l, o :: tr => ok l o ∧ Runs (after l o) tr

def start : Spec := fun _ => 0

theorem Runs.append {l : Spec} {x y : List Obs} : Runs l (x ++ y) ↔ Runs l x ∧ Runs (x.foldl after l) y := by
  induction x generalizing l with
  | nil => simp [Runs]
  | cons o x ih => simp only [List.cons_append, Runs, ih, List.foldl_cons]; exact and_assoc.symm

/-! ## Refutations -/

/-- A pointer that a cleanup function stores at the end of the fiber, in a `fiber_specific_ptr` with a lower address, is
never cleaned up. -/
theorem stored_at_end_lost : ∃ s, Reach step (init false) s [.stored 4 5, .cleanup 4 5, .stored 2 6, .exited] ∧ s.mode = .ended ∧ s.map = [] :=
  ⟨_, reach_of_exec (es := [.reset 4 5, .exit, .reset 2 6, .ret]) rfl, rfl, rfl⟩

/-- A cleanup function that resets the pointer it is called for has it cleaned up twice; at the end of a fiber the
loop then goes on with an iterator to a node that was erased. -/
theorem reset_in_cleanup_twice : ∃ s, Reach step (init false) s [.stored 4 5, .cleanup 4 5, .cleanup 4 5, .stored 4 0, .ub] :=
  ⟨_, reach_of_exec (es := [.reset 4 5, .exit, .reset 4 0, .ret, .ret]) rfl⟩

/-- The same without the end of the fiber. -/
theorem reset_in_reset_twice : ∃ s, Reach step (init false) s [.stored 4 5, .cleanup 4 5, .cleanup 4 5, .stored 4 7, .stored 4 6] ∧ s.mode = .running :=
  ⟨_, reach_of_exec (es := [.reset 4 5, .reset 4 6, .reset 4 7, .ret, .ret]) rfl, rfl⟩

theorem refuted : ¬ Runs start [.stored 4 5, .cleanup 4 5, .stored 2 6, .exited] ∧ ¬ Runs start [.stored 4 5, .cleanup 4 5, .cleanup 4 5, .stored 4 0, .ub] ∧
    ¬ Runs start [.stored 4 5, .cleanup 4 5, .cleanup 4 5, .stored 4 7, .stored 4 6] := by
  refine ⟨?_, ?_, ?_⟩
  · rintro ⟨_, _, _, h, _⟩; have := h 2; simp [after, upd_apply] at this
  · rintro ⟨_, _, h, _⟩; simp [ok, after, upd_apply] at h
  · rintro ⟨_, _, h, _⟩; simp [ok, after, upd_apply] at h

/-! ## Cleanup functions that only use pointers with greater keys -/

/-- The keys of the pending calls, innermost first, decrease. -/
def Desc (st : List Frame) : Prop := (st.map Frame.key).Pairwise (· > ·)

/-- The key of the loop of `terminate`. -/
def loopKey : List Frame → Option Addr
  | [] => none
  | .loop a _ :: _ => some a
  | .set _ _ _ :: st => loopKey st

/-- The loop of `terminate` is the outermost call. -/
def Shape : List Frame → Prop
  | [] => True
  | .loop _ _ :: st => st = []
  | .set _ _ _ :: st => Shape st

structure Inv (s : State) (l : Spec) : Prop where
  strict : s.strict = true
  mode : s.mode ≠ .broken
  srt : Sorted s.map
  desc : Desc s.stack
  node : ∀ fr ∈ s.stack, ∃ p, find fr.key s.map = some (p, fr.node)
  /-- the entry of a pending call, and those the loop has left behind, are cleaned up -/
  zero : ∀ fr ∈ s.stack, l fr.key = 0
  val : ∀ a, (∀ fr ∈ s.stack, fr.key ≠ a) → (∀ k, loopKey s.stack = some k → k < a) → l a = getData a s.map
  low : ∀ k a, loopKey s.stack = some k → a ≤ k → l a = 0
  run : s.mode = .running → loopKey s.stack = none
  ending : s.mode = .ending → loopKey s.stack ≠ none
  ended : s.mode = .ended → s.stack = [] ∧ s.map = []
  shape : Shape s.stack
  bottom : ∀ fr ∈ s.stack, ∀ k, loopKey s.stack = some k → k ≤ fr.key

theorem inv_init : Inv (init true) start := by
  constructor <;> simp [init, Sorted, Desc, start, getData, find, loopKey, Shape]

theorem mem_find {m : Map} (h : Sorted m) : ∀ e ∈ m, find e.1 m = some e.2 := by
  induction m with
  | nil => intro e he; cases he
  | cons d m ih =>
    intro e he
    rcases List.mem_cons.1 he with rfl | he
    · simp [find]
    · have h1 : d.1 < e.1 := (List.pairwise_cons.1 h).1 e.1 (List.mem_map_of_mem he)
      rw [find, if_neg (Nat.ne_of_gt h1)]
      exact ih h.tail e he

theorem find_mem {m : Map} {a : Addr} {d : Ptr × Nat} (h : find a m = some d) : (a, d) ∈ m := by
  induction m with
  | nil => cases h
  | cons e m ih =>
    obtain ⟨b, e⟩ := e
    rw [find] at h
    split at h
    · rename_i hab
      simp only [Option.some.injEq] at h
      subst h hab
      exact List.mem_cons_self ..
    · exact List.mem_cons_of_mem _ (ih h)

/-- Going on to the first entry behind key `k`. -/
theorem advance_ok {s : State} {l : Spec} {o : List Obs} {s' : State} {later : Map} (h1 : s.strict = true) (h2 : s.mode ≠ .broken) (h3 : Sorted s.map)
    (hm : s.mode = .ending) (hsub : later.Sublist s.map) (hlow : ∀ a, (∀ e ∈ later, e.1 ≠ a) → l a = 0)
    (hval : ∀ e ∈ later, l e.1 = e.2.1) (hup : ∀ e ∈ s.map, ∀ d ∈ later, d.1 ≤ e.1 → e ∈ later) (hs : advance s [] later = (s', o)) : Runs l o ∧ Inv s' (o.foldl after l) := by
  cases hl : later with
  | nil =>
    rw [hl] at hs
    simp only [advance, Prod.mk.injEq] at hs
    obtain ⟨rfl, rfl⟩ := hs
    have hz : ∀ a, l a = 0 := fun a => hlow a (by rw [hl]; simp)
    refine ⟨⟨hz, trivial⟩, ?_⟩
    constructor <;> simp [h1, Sorted, Desc, after, getData, find, hz, loopKey, Shape]
  | cons e rest =>
    obtain ⟨a, p, i⟩ := e
    rw [hl] at hs hsub hlow hval hup
    simp only [advance, Prod.mk.injEq] at hs
    obtain ⟨rfl, rfl⟩ := hs
    have hsl : Sorted ((a, p, i) :: rest) := h3.sublist (hsub.map _)
    have hmem : (a, p, i) ∈ s.map := hsub.subset (List.mem_cons_self ..)
    have hgt : ∀ e ∈ rest, a < e.1 := fun e he => (List.pairwise_cons.1 hsl).1 e.1 (List.mem_map_of_mem he)
    have hin : ∀ b, a < b → l b = getData b s.map := by
      intro b hb
      cases hf : find b s.map with
      | none =>
        rw [getData, hf]
        refine hlow b ?_
        rintro e he rfl
        have := mem_find h3 e (hsub.subset he)
        rw [hf] at this; cases this
      | some d =>
        by_cases hex : (b, d) ∈ (a, p, i) :: rest
        · rw [getData, hf]; exact hval (b, d) hex
        · exact absurd (hup _ (find_mem hf) _ (List.mem_cons_self ..) (Nat.le_of_lt hb)) hex
    refine ⟨⟨(hval _ (List.mem_cons_self ..)).symm, trivial⟩, ?_⟩
    constructor
    · exact h1
    · exact h2
    · exact h3
    · simp [Desc]
    · simp only [List.mem_singleton, forall_eq, Frame.key, Frame.node]; exact ⟨p, mem_find h3 _ hmem⟩
    · simp [Frame.key, after]
    · intro b hb hk
      have : a < b := hk a rfl
      simp only [List.foldl, after, upd_apply, if_neg (Nat.ne_of_gt this)]
      exact hin b this
    · intro k b hk hb
      simp only [loopKey, Option.some.injEq] at hk
      subst hk
      simp only [List.foldl, after, upd_apply]
      split
      · rfl
      · rename_i hne
        refine hlow b ?_
        rintro e he rfl
        rcases List.mem_cons.1 he with rfl | he
        · exact hne rfl
        · have := hgt e he; exact absurd (Nat.lt_of_lt_of_le this hb) (Nat.lt_irrefl _)
    · intro hr; simp only at hr; rw [hm] at hr; cases hr
    · simp [loopKey]
    · intro he; simp only at he; rw [hm] at he; cases he
    · rfl
    · simp [loopKey, Frame.key]

theorem loopKey_mem {st : List Frame} {k : Addr} (h : loopKey st = some k) : ∃ fr ∈ st, fr.key = k := by
  induction st with
  | nil => cases h
  | cons fr st ih =>
    cases fr with
    | loop a i => simp only [loopKey, Option.some.injEq] at h; exact ⟨_, List.mem_cons_self .., h⟩
    | set a i v => obtain ⟨fr, h1, h2⟩ := ih h; exact ⟨fr, List.mem_cons_of_mem _ h1, h2⟩

/-- A pointer that may be used is not the subject of a pending call. -/
theorem may_fresh {s : State} {l : Spec} (hi : Inv s l) {a : Addr} (h : may s a = true) :
    (∀ fr ∈ s.stack, fr.key < a) ∧ (s.mode = .running ∨ s.mode = .ending) := by
  cases hst : s.stack with
  | nil => simp only [may, hst, decide_eq_true_eq] at h; exact ⟨by simp, .inl h⟩
  | cons fr st =>
    have hd := hi.desc
    simp only [may, hst, hi.strict, Bool.not_true, Bool.false_or, Bool.and_eq_true, decide_eq_true_eq] at h
    rw [Desc, hst, List.map_cons, List.pairwise_cons] at hd
    refine ⟨?_, h.1⟩
    intro g hg
    rcases List.mem_cons.1 hg with rfl | hg
    · exact h.2
    · exact Nat.lt_trans (hd.1 g.key (List.mem_map_of_mem hg)) h.2

theorem fresh_val {s : State} {l : Spec} (hi : Inv s l) {a : Addr} (h : ∀ fr ∈ s.stack, fr.key < a) : l a = getData a s.map := by
  refine hi.val a (fun fr hfr => Nat.ne_of_lt (h fr hfr)) ?_
  intro k hk
  obtain ⟨fr, h1, rfl⟩ := loopKey_mem hk
  exact h fr h1

/-- Changing the entry of a pointer that is not the subject of a pending call. -/
theorem change {s : State} {l : Spec} (hi : Inv s l) {a : Addr} (h : ∀ fr ∈ s.stack, fr.key < a) {m : Map} {n : Nat} {v : Ptr} (hm : s.mode = .running ∨ s.mode = .ending)
    (hsrt : Sorted m) (hf : ∀ b, b ≠ a → find b m = find b s.map) (hv : getData a m = v) : Inv { s with map := m, next := n } (upd l a v) := by
  have hk : ∀ k, loopKey s.stack = some k → k < a := by
    intro k hk
    obtain ⟨fr, h1, rfl⟩ := loopKey_mem hk
    exact h fr h1
  have hne : ∀ fr ∈ s.stack, fr.key ≠ a := fun fr hfr => Nat.ne_of_lt (h fr hfr)
  constructor
  · exact hi.strict
  · exact hi.mode
  · exact hsrt
  · exact hi.desc
  · intro fr hfr; simp only [hf _ (hne fr hfr)]; exact hi.node fr hfr
  · intro fr hfr; rw [upd_apply, if_neg (hne fr hfr)]; exact hi.zero fr hfr
  · intro b hb hkb
    rw [upd_apply]
    split
    · rename_i e; subst e; exact hv.symm
    · rename_i e
      rw [hi.val b hb hkb]
      simp only [getData, hf b e]
  · intro k b hkb hbk
    rw [upd_apply, if_neg (Nat.ne_of_lt (Nat.lt_of_le_of_lt hbk (hk k hkb)))]
    exact hi.low k b hkb hbk
  · exact hi.run
  · exact hi.ending
  · intro he; simp only at he; rw [he] at hm; rcases hm with hm | hm <;> cases hm
  · exact hi.shape
  · exact hi.bottom

theorem sorted_erase {a : Addr} {m : Map} (h : Sorted m) : Sorted (erase a m) := List.Pairwise.sublist ((erase_sublist a m).map _) h

theorem sorted_assign {a : Addr} {d : Ptr × Nat} {m : Map} (h : Sorted m) : Sorted (assign a d m) := by rw [Sorted, keys_assign]; exact h

/-- The call on top of the stack returns. -/
theorem pop {s : State} {l : Spec} {a : Addr} {i : Nat} {v : Ptr} {rest : List Frame} (hi : Inv s l) (hst : s.stack = .set a i v :: rest)
    (hm : s.mode ≠ .ended) : (∀ fr ∈ rest, fr.key < a) ∧ l a = 0 ∧ ∀ m, Sorted m → (∀ b, b ≠ a → find b m = find b s.map) →
      Inv { s with stack := rest, map := m } (upd l a (getData a m)) := by
  have hlt : ∀ fr ∈ rest, fr.key < a := by
    have hd := hi.desc
    rw [Desc, hst, List.map_cons, List.pairwise_cons] at hd
    exact fun fr hfr => hd.1 fr.key (List.mem_map_of_mem hfr)
  have hz : l a = 0 := hi.zero (.set a i v) (by rw [hst]; exact List.mem_cons_self ..)
  refine ⟨hlt, hz, ?_⟩
  intro m hsrt hf
  have hin : ∀ fr ∈ rest, fr ∈ s.stack := fun fr hfr => by rw [hst]; exact List.mem_cons_of_mem _ hfr
  have hlk : loopKey s.stack = loopKey rest := by rw [hst]; rfl
  have hk : ∀ k, loopKey rest = some k → k < a := by
    intro k hk
    obtain ⟨fr, h1, rfl⟩ := loopKey_mem hk
    exact hlt fr h1
  have hne : ∀ fr ∈ rest, fr.key ≠ a := fun fr hfr => Nat.ne_of_lt (hlt fr hfr)
  constructor
  · exact hi.strict
  · exact hi.mode
  · exact hsrt
  · have := hi.desc; rw [Desc, hst] at this; exact (List.pairwise_cons.1 this).2
  · intro fr hfr; simp only [hf _ (hne fr hfr)]; exact hi.node fr (hin fr hfr)
  · intro fr hfr; rw [upd_apply, if_neg (hne fr hfr)]; exact hi.zero fr (hin fr hfr)
  · intro b hb hkb
    rw [upd_apply]
    split
    · rename_i e; subst e; rfl
    · rename_i e
      rw [hi.val b]
      · simp only [getData, hf b e]
      · intro fr hfr
        rw [hst] at hfr
        rcases List.mem_cons.1 hfr with rfl | hfr
        · exact fun h => e h.symm
        · exact hb fr hfr
      · rw [hlk]; exact hkb
  · intro k b hkb hbk
    rw [upd_apply, if_neg (Nat.ne_of_lt (Nat.lt_of_le_of_lt hbk (hk k hkb)))]
    exact hi.low k b (by rw [hlk]; exact hkb) hbk
  · intro h; have := hi.run h; rw [hlk] at this; exact this
  · intro h; have := hi.ending h; rw [hlk] at this; exact this
  · intro h; exact absurd h hm
  · have := hi.shape; rw [hst] at this; exact this
  · intro fr hfr k hk; exact hi.bottom fr (hin fr hfr) k (by rw [hlk]; exact hk)

theorem getData_find {m : Map} {a : Addr} {p : Ptr} {i : Nat} (h : find a m = some (p, i)) : getData a m = p := by rw [getData, h]

theorem inv_step {s s' : State} {l : Spec} (hi : Inv s l) {e : Event} {o : List Obs} (hs : step s e = some (s', o)) :
    Runs l o ∧ Inv s' (o.foldl after l) := by
  cases e with
  | reset a v =>
    simp only [step] at hs
    split at hs
    case isFalse => cases hs
    rename_i hmay
    obtain ⟨hfr, hm⟩ := may_fresh hi hmay
    split at hs
    · simp only [Option.some.injEq, Prod.mk.injEq] at hs
      obtain ⟨rfl, rfl⟩ := hs
      exact ⟨trivial, hi⟩
    · have hla := fresh_val hi hfr
      split at hs
      · rename_i p i hf
        simp only [Option.some.injEq, Prod.mk.injEq] at hs
        obtain ⟨rfl, rfl⟩ := hs
        rw [getData_find hf] at hla
        refine ⟨⟨hla.symm, trivial⟩, ?_⟩
        have hk : ∀ k, loopKey s.stack = some k → k < a := by
          intro k hk
          obtain ⟨fr, h1, rfl⟩ := loopKey_mem hk
          exact hfr fr h1
        constructor
        · exact hi.strict
        · exact hi.mode
        · exact hi.srt
        · refine List.pairwise_cons.2 ⟨?_, hi.desc⟩
          intro b hb
          obtain ⟨fr, h1, rfl⟩ := List.mem_map.1 hb
          exact hfr fr h1
        · intro fr h1
          rcases List.mem_cons.1 h1 with rfl | h1
          · exact ⟨p, hf⟩
          · exact hi.node fr h1
        · intro fr h1
          simp only [List.foldl, after, upd_apply]
          split
          · rfl
          · rename_i hne
            rcases List.mem_cons.1 h1 with rfl | h1
            · exact absurd rfl hne
            · exact hi.zero fr h1
        · intro b hb hkb
          have hba : b ≠ a := fun h => hb (.set a i v) (List.mem_cons_self ..) h.symm
          simp only [List.foldl, after, upd_apply, if_neg hba]
          exact hi.val b (fun fr h1 => hb fr (List.mem_cons_of_mem _ h1)) hkb
        · intro k b hkb hbk
          simp only [List.foldl, after, upd_apply, if_neg (Nat.ne_of_lt (Nat.lt_of_le_of_lt hbk (hk k hkb)))]
          exact hi.low k b hkb hbk
        · exact hi.run
        · exact hi.ending
        · intro he; simp only at he; rw [he] at hm; rcases hm with hm | hm <;> cases hm
        · exact hi.shape
        · intro fr h1 k hkb
          rcases List.mem_cons.1 h1 with rfl | h1
          · exact Nat.le_of_lt (hk k hkb)
          · exact hi.bottom fr h1 k hkb
      · rename_i hf
        simp only [Option.some.injEq, Prod.mk.injEq] at hs
        obtain ⟨rfl, rfl⟩ := hs
        have h0 : l a = 0 := by rw [hla, getData, hf]
        refine ⟨⟨h0, trivial⟩, ?_⟩
        refine change hi hfr hm (sorted_insert hi.srt hf) ?_ ?_
        · intro b hb; rw [find_insert hf, if_neg hb]
        · rw [getData, find_insert hf, if_pos rfl]
  | release a =>
    simp only [step] at hs
    split at hs
    case isFalse => cases hs
    rename_i hmay
    obtain ⟨hfr, hm⟩ := may_fresh hi hmay
    have hla := fresh_val hi hfr
    split at hs
    · rename_i p i hf
      simp only [Option.some.injEq, Prod.mk.injEq] at hs
      obtain ⟨rfl, rfl⟩ := hs
      rw [getData_find hf] at hla
      refine ⟨⟨hla.symm, trivial⟩, ?_⟩
      refine change (n := s.next) hi hfr hm (sorted_erase hi.srt) ?_ ?_
      · intro b hb; rw [find_erase hi.srt, if_neg hb]
      · rw [getData, find_erase hi.srt, if_pos rfl]
    · rename_i hf
      simp only [Option.some.injEq, Prod.mk.injEq] at hs
      obtain ⟨rfl, rfl⟩ := hs
      have h0 : l a = 0 := by rw [hla, getData, hf]
      refine ⟨⟨h0.symm, trivial⟩, ?_⟩
      refine change hi hfr hm (sorted_insert hi.srt hf) ?_ ?_
      · intro b hb; rw [find_insert hf, if_neg hb]
      · rw [getData, find_insert hf, if_pos rfl]
  | ret =>
    simp only [step] at hs
    rw [if_neg hi.mode] at hs
    have hnend : s.stack ≠ [] → s.mode ≠ .ended := fun h h1 => h (hi.ended h1).1
    split at hs
    · cases hs
    · rename_i a i v rest hst
      obtain ⟨p, hf⟩ := hi.node (.set a i v) (by rw [hst]; exact List.mem_cons_self ..)
      simp only [Frame.key, Frame.node] at hf
      rw [hf] at hs
      simp only [if_true, Option.some.injEq, Prod.mk.injEq] at hs
      obtain ⟨rfl, rfl⟩ := hs
      obtain ⟨hlt, hz, hp⟩ := pop hi hst (hnend (by rw [hst]; simp))
      refine ⟨⟨hz, trivial⟩, ?_⟩
      by_cases hv : v = 0
      · have := hp (erase a s.map) (sorted_erase hi.srt) (fun b hb => by rw [find_erase hi.srt, if_neg hb])
        rw [getData, find_erase hi.srt, if_pos rfl] at this
        simpa [hv, after] using this
      · have hn : find a s.map ≠ none := by rw [hf]; simp
        have := hp (assign a (v, i) s.map) (sorted_assign hi.srt) (fun b hb => by rw [find_assign hn, if_neg hb])
        rw [getData, find_assign hn, if_pos rfl] at this
        simpa [hv, after] using this
    · rename_i a i rest hst
      obtain ⟨p, hf⟩ := hi.node (.loop a i) (by rw [hst]; exact List.mem_cons_self ..)
      simp only [Frame.key, Frame.node] at hf
      rw [hf] at hs
      simp only [if_true, Option.some.injEq] at hs
      have hsh := hi.shape
      rw [hst] at hsh
      have hsh : rest = [] := hsh
      subst hsh
      have hmode : s.mode = .ending := by
        cases hm : s.mode with
        | running => have := hi.run hm; rw [hst] at this; cases this
        | ending => rfl
        | ended => exact absurd hm (hnend (by rw [hst]; simp))
        | broken => exact absurd hm hi.mode
      have hlk : loopKey s.stack = some a := by rw [hst]; rfl
      have hvl : ∀ b, a < b → l b = getData b s.map := by
        intro b hb
        refine hi.val b ?_ ?_
        · rw [hst]; simp only [List.mem_singleton, forall_eq, Frame.key]; exact Nat.ne_of_lt hb
        · rw [hlk]; intro k hk; simp only [Option.some.injEq] at hk; subst hk; exact hb
      refine advance_ok hi.strict hi.mode hi.srt hmode List.filter_sublist ?_ ?_ ?_ hs
      · intro b hb
        by_cases hab : a < b
        · rw [hvl b hab, getData]
          cases hfb : find b s.map with
          | none => rfl
          | some d => exact absurd rfl (hb (b, d) (List.mem_filter.2 ⟨find_mem hfb, by simpa using hab⟩))
        · exact hi.low a b hlk (Nat.le_of_not_lt hab)
      · intro d hd
        obtain ⟨h1, h2⟩ := List.mem_filter.1 hd
        rw [hvl d.1 (by simpa using h2), getData, mem_find hi.srt d h1]
      · intro d hd d' hd' hle
        refine List.mem_filter.2 ⟨hd, ?_⟩
        have := (List.mem_filter.1 hd').2
        simp only [decide_eq_true_eq] at this ⊢
        exact Nat.lt_of_lt_of_le this hle
  | exit =>
    simp only [step] at hs
    split at hs
    case isFalse => cases hs
    rename_i hc
    simp only [Option.some.injEq] at hs
    have hvl : ∀ b, l b = getData b s.map := fun b => hi.val b (by rw [hc.2]; simp) (by rw [hc.2]; simp [loopKey])
    refine advance_ok (s := { s with mode := .ending }) hi.strict (by simp) hi.srt rfl (List.Sublist.refl _) ?_ ?_ ?_ hs
    · intro b hb
      rw [hvl b, getData]
      cases hfb : find b s.map with
      | none => rfl
      | some d => exact absurd rfl (hb (b, d) (find_mem hfb))
    · intro d hd
      rw [hvl d.1, getData, mem_find hi.srt d hd]
    · intro d hd _ _ _; exact hd

theorem reach_inv {s : State} {tr : List Obs} (h : Reach step (init true) s tr) : Runs start tr ∧ Inv s (tr.foldl after start) := by
  refine h.inv (P := fun s tr => Runs start tr ∧ Inv s (tr.foldl after start)) ⟨trivial, inv_init⟩ ?_
  intro s tr e s' o _ hp hs
  obtain ⟨h1, h2⟩ := inv_step hp.2 hs
  exact ⟨Runs.append.2 ⟨hp.1, h1⟩, by rw [List.foldl_append]; exact h2⟩

/-- **C70, partial**: cleanup functions that use only `fiber_specific_ptr`s with greater addresses than the one they are
called for are called once for each pointer that was stored, none is lost at the end, and no freed node is used. -/
theorem cleanup_once_partial {s : State} {tr : List Obs} (h : Reach step (init true) s tr) : Runs start tr := (reach_inv h).1

/-- Undefined behaviour is not reached. -/
theorem no_ub_partial {s : State} {tr : List Obs} (h : Reach step (init true) s tr) : .ub ∉ tr := by
  intro hm
  obtain ⟨x, y, rfl⟩ := List.append_of_mem hm
  exact (Runs.append.1 (cleanup_once_partial h)).2.1

def isStored (a : Addr) (v : Ptr) : Obs → Bool
  | .stored b w => decide (b = a ∧ w = v)
  | _ => false

def isTaken (a : Addr) (v : Ptr) : Obs → Bool
  | .cleanup b w => decide (b = a ∧ w = v)
  | .released b w => decide (b = a ∧ w = v)
  | _ => false

def remains (l : Spec) (a : Addr) (v : Ptr) : Nat := if l a = v then 1 else 0

theorem counts {a : Addr} {v : Ptr} (hv : v ≠ 0) : ∀ (tr : List Obs) (l : Spec), Runs l tr →
    tr.countP (isStored a v) + remains l a v = tr.countP (isTaken a v) + remains (tr.foldl after l) a v := by
  intro tr
  induction tr with
  | nil => intro l _; simp
  | cons o tr ih =>
    intro l h
    have := ih _ h.2
    have ho := h.1
    simp only [List.countP_cons, List.foldl_cons]
    cases o with
    | stored b w =>
      simp only [ok] at ho
      simp only [isStored, isTaken, after, remains, upd_apply] at this ⊢
      by_cases hb : b = a
      · subst hb
        by_cases hw : w = v
        · subst hw; simp [ho, hv.symm] at this ⊢; omega
        · simp [ho, hw, hv.symm] at this ⊢; omega
      · have : a ≠ b := fun h => hb h.symm
        simp_all
    | released b w =>
      simp only [ok] at ho
      simp only [isStored, isTaken, after, remains, upd_apply] at this ⊢
      by_cases hb : b = a
      · subst hb
        by_cases hw : w = v
        · subst hw; simp [← ho, hv.symm] at this ⊢; omega
        · simp [← ho, hw, hv.symm] at this ⊢; omega
      · have : a ≠ b := fun h => hb h.symm
        simp_all
    | cleanup b w =>
      simp only [ok] at ho
      simp only [isStored, isTaken, after, remains, upd_apply] at this ⊢
      by_cases hb : b = a
      · subst hb
        by_cases hw : w = v
        · subst hw; simp [← ho, hv.symm] at this ⊢; omega
        · simp [← ho, hw, hv.symm] at this ⊢; omega
      · have : a ≠ b := fun h => hb h.symm
        simp_all
    | exited => simpa [isStored, isTaken, after] using this
    | ub => exact ho.elim

/-- **C70, partial**: when the fiber has ended, every pointer has been cleaned up or released as often as it was stored. -/
theorem all_cleaned_partial {s : State} {tr : List Obs} {a : Addr} {v : Ptr} (h : Reach step (init true) s tr) (he : s.mode = .ended) (hv : v ≠ 0) :
    tr.countP (isStored a v) = tr.countP (isTaken a v) := by
  obtain ⟨h1, h2⟩ := reach_inv h
  have hc := counts (a := a) hv tr _ h1
  have hz : tr.foldl after start a = 0 := by
    rw [h2.val a (by rw [(h2.ended he).1]; simp) (by rw [(h2.ended he).1]; simp [loopKey]), (h2.ended he).2]; rfl
  have e1 : remains start a v = 0 := by rw [remains, if_neg]; exact fun h => hv h.symm
  have e2 : remains (tr.foldl after start) a v = 0 := by rw [remains, if_neg]; rw [hz]; exact fun h => hv h.symm
  omega

/-- `reset` with the pointer that is stored does nothing; in particular the pointer, still in use, is not cleaned up. -/
theorem reset_same_partial {s s' : State} {tr o : List Obs} {a : Addr} {v : Ptr} (h : Reach step (init true) s tr) (hv : tr.foldl after start a = v)
    (hs : step s (.reset a v) = some (s', o)) : s' = s ∧ o = [] := by
  simp only [step] at hs
  split at hs
  · rename_i hm
    have hi := (reach_inv h).2
    have hg := fresh_val hi (may_fresh hi hm).1
    rw [if_pos (hg.symm.trans hv)] at hs
    simp only [Option.some.injEq, Prod.mk.injEq] at hs
    exact ⟨hs.1.symm, hs.2.symm⟩
  · cases hs

/-- A cleanup function stores into a pointer with a greater address, nested in the end of the fiber and in a `reset`. -/
def demo : List Event := [.reset 2 5, .reset 4 6, .reset 2 8, .reset 4 9, .ret, .ret, .exit, .reset 6 1, .reset 4 3, .release 6, .ret, .ret, .ret]

def demoTrace : List Obs := [.stored 2 5, .stored 4 6, .cleanup 2 5, .cleanup 4 6, .stored 4 9, .stored 2 8, .cleanup 2 8, .stored 6 1, .cleanup 4 9,
  .released 6 1, .stored 4 3, .cleanup 4 3, .exited]

theorem demo_reach : ∃ s, Reach step (init true) s demoTrace ∧ s.mode = .ended := ⟨_, reach_of_exec (es := demo) rfl, rfl⟩

example : Runs start demoTrace := cleanup_once_partial demo_reach.choose_spec.1
example : demoTrace.countP (isStored 4 9) = demoTrace.countP (isTaken 4 9) := all_cleaned_partial demo_reach.choose_spec.1 demo_reach.choose_spec.2 (by decide)
-- `reset_same_partial`: the call happens, and the pointer is not null
example : ∃ s, Reach step (init true) s [.stored 4 5] ∧ [Obs.stored 4 5].foldl after start 4 = 5 ∧ (step s (.reset 4 5)).isSome :=
  ⟨_, reach_of_exec (es := [.reset 4 5]) rfl, rfl, rfl⟩
example : Obs.ub ∉ demoTrace := no_ub_partial demo_reach.choose_spec.1

end Verif.FssRe

/-! # C71: cleanup functions that wait -/

namespace Verif.FssWait

/-- A cleanup function of fiber 0 waits; fiber 1 joins fiber 0, and from then on the thread does nothing but spin: neither
fiber ever gets any further, whatever happens. -/
theorem wait_in_cleanup_hangs : ∃ s, Reach step (init false) s [] ∧ s.pc 0 = .cleaning ∧ s.run = 1 ∧ s.pc 1 = .spinning 0 ∧
    ∀ s' tr, Reach step s s' tr → s' = s := by
  refine ⟨_, reach_of_exec (es := [.finish, .switch 1, .join 0]) rfl, rfl, rfl, rfl, ?_⟩
  intro s' tr h
  refine h.inv (P := fun s' _ => s' = _) rfl ?_
  intro s tr e s' o _ hp hs
  subst hp
  cases e with
  | switch g => simp [step, wakeUp, init, upd_apply, suspended] at hs
  | finish => simp [step, wakeUp, init, upd_apply] at hs
  | leave g => simp [step, wakeUp, init, upd_apply] at hs
  | join g => simp [step, wakeUp, init, upd_apply] at hs
  | spin => simp [step, wakeUp, init, upd_apply] at hs; exact hs.1.symm

structure Inv (s : State) : Prop where
  strict : s.strict = true
  lock : ∀ g, s.locked g = true → g = s.run ∧ s.pc g = .cleaning
  over : ∀ g, s.pc g = .cleaning → g = s.run
  fin : ∀ g, s.over g = true ↔ s.pc g = .cleaning ∨ s.pc g = .done

theorem inv_init : Inv (init true) := by constructor <;> simp [init]

theorem inv_wakeUp {s : State} {g : Fid} (h1 : s.strict = true) (h2 : ∀ g, s.locked g = false) (h3 : ∀ g, s.pc g ≠ .cleaning)
    (h4 : ∀ g, s.over g = true ↔ s.pc g = .done) : Inv (wakeUp s g) := by
  unfold wakeUp
  split
  · rename_i t ht
    constructor
    · exact h1
    · intro f hf; rw [h2 f] at hf; cases hf
    · intro f hf
      simp only [upd_apply] at hf
      split at hf
      · cases hf
      · exact absurd hf (h3 f)
    · intro f
      have := h4 f
      simp only [upd_apply]
      split
      · rename_i e; subst e; rw [this, ht]; simp
      · rw [this]; exact ⟨.inr, fun h => h.resolve_left (h3 f)⟩
  · constructor
    · exact h1
    · intro f hf; rw [h2 f] at hf; cases hf
    · intro f hf; exact absurd hf (h3 f)
    · intro f; rw [h4 f]; exact ⟨.inr, fun h => h.resolve_left (h3 f)⟩

theorem inv_step {s s' : State} (hi : Inv s) {e : Event} {o : List Unit} (hs : step s e = some (s', o)) : Inv s' := by
  have hpc : s.pc s.run ≠ .cleaning → (∀ g, s.locked g = false) ∧ (∀ g, s.pc g ≠ .cleaning) ∧ (∀ g, s.over g = true ↔ s.pc g = .done) := by
    intro h
    have h3 : ∀ g, s.pc g ≠ .cleaning := fun g hg => h (by rw [← hi.over g hg]; exact hg)
    refine ⟨fun g => ?_, h3, fun g => (hi.fin g).trans ⟨fun h => h.resolve_left (h3 g), .inr⟩⟩
    cases hl : s.locked g with
    | false => rfl
    | true => exact absurd (hi.lock g hl).2 (h3 g)
  have own : ∀ p, s.pc s.run ≠ .cleaning → s.pc s.run ≠ .done → p ≠ Pc.cleaning → p ≠ Pc.done → Inv { s with pc := upd s.pc s.run p } := by
    intro p h0 h1 h2 h4
    obtain ⟨ha, hb, hc⟩ := hpc h0
    constructor
    · exact hi.strict
    · intro f hf; simp only [ha f] at hf; cases hf
    · intro f hf
      simp only [upd_apply] at hf
      split at hf
      · exact absurd hf h2
      · exact absurd hf (hb f)
    · intro f
      have := hc f
      simp only [upd_apply]
      split
      · rename_i e; subst e
        exact ⟨fun h => absurd (this.1 h) h1, fun h => h.elim (fun h => absurd h h2) (fun h => absurd h h4)⟩
      · rw [this]; exact ⟨.inr, fun h => h.resolve_left (hb f)⟩
  cases e with
  | switch g =>
    simp only [step] at hs
    split at hs
    case isFalse => cases hs
    rename_i hc
    simp only [Option.some.injEq, Prod.mk.injEq] at hs
    obtain ⟨rfl, rfl⟩ := hs
    have hne : s.pc s.run ≠ .cleaning := by
      rcases hc.2 with h | h | h
      · rw [h]; simp
      · intro h'; rw [h'] at h; cases h
      · rw [hi.strict] at h; cases h.2
    obtain ⟨ha, hb, hd⟩ := hpc hne
    exact inv_wakeUp hi.strict ha hb hd
  | finish =>
    simp only [step] at hs
    split at hs
    case isFalse => cases hs
    rename_i hc
    simp only [Option.some.injEq, Prod.mk.injEq] at hs
    obtain ⟨rfl, rfl⟩ := hs
    obtain ⟨ha, hb, hd⟩ := hpc (by rw [hc.1]; simp)
    constructor
    · exact hi.strict
    · intro f hf
      simp only [upd_apply] at hf ⊢
      split at hf
      · rename_i e; subst e; simp
      · rw [ha f] at hf; cases hf
    · intro f hf
      simp only [upd_apply] at hf
      split at hf
      · rename_i e; exact e
      · exact absurd hf (hb f)
    · intro f
      simp only [upd_apply]
      split
      · simp
      · rw [hd f]; exact ⟨.inr, fun h => h.resolve_left (hb f)⟩
  | leave g =>
    simp only [step] at hs
    split at hs
    case isFalse => cases hs
    rename_i hc
    simp only [Option.some.injEq, Prod.mk.injEq] at hs
    obtain ⟨rfl, rfl⟩ := hs
    refine inv_wakeUp hi.strict ?_ ?_ ?_
    · intro f
      simp only [upd_apply]
      split
      · rfl
      · rename_i hne
        cases hl : s.locked f with
        | false => rfl
        | true => exact absurd (hi.lock f hl).1 hne
    · intro f hf
      simp only [upd_apply] at hf
      split at hf
      · cases hf
      · rename_i hne; exact hne (hi.over f hf)
    · intro f
      simp only [upd_apply]
      split
      · rename_i e; subst e; simp [(hi.fin s.run).2 (.inl hc.1)]
      · rename_i hne
        exact (hi.fin f).trans ⟨fun h => h.resolve_left (fun h => hne (hi.over f h)), .inr⟩
  | join g =>
    simp only [step] at hs
    split at hs
    case isFalse => cases hs
    rename_i hc
    simp only [Option.some.injEq, Prod.mk.injEq] at hs
    obtain ⟨rfl, rfl⟩ := hs
    exact own _ (by rw [hc.1]; simp) (by rw [hc.1]; simp) (by simp) (by simp)
  | spin =>
    simp only [step] at hs
    split at hs
    · rename_i g hg
      split at hs
      · simp only [Option.some.injEq, Prod.mk.injEq] at hs
        obtain ⟨rfl, rfl⟩ := hs
        exact hi
      · split at hs <;>
        · simp only [Option.some.injEq, Prod.mk.injEq] at hs
          obtain ⟨rfl, rfl⟩ := hs
          exact own _ (by rw [hg]; simp) (by rw [hg]; simp) (by simp) (by simp)
    · cases hs

theorem reach_inv {s : State} {tr : List Unit} (h : Reach step (init true) s tr) : Inv s :=
  h.inv (P := fun s _ => Inv s) inv_init (fun _ _ _ _ _ _ hp hs => inv_step hp hs)

/-- **C71, partial**: if cleanup functions do not wait, a fiber that joins another one of its thread finds the spinlock of
its control block free: it gets past it in one step, and goes on at once or waits, as the other fiber has ended or not. -/
theorem join_never_spins_partial {s : State} {tr : List Unit} {g : Fid} (h : Reach step (init true) s tr) (hp : s.pc s.run = .spinning g) :
    ∃ s', step s .spin = some (s', []) ∧ (s.pc g = .done → s'.pc s.run = .user) ∧ (s'.pc s.run = .user ∨ s'.pc s.run = .waiting g) := by
  have hi := reach_inv h
  have hl : s.locked g = false := by
    cases hl : s.locked g with
    | false => rfl
    | true =>
      obtain ⟨h1, h2⟩ := hi.lock g hl
      rw [h1, hp] at h2; cases h2
  simp only [step, hp, hl, Bool.false_eq_true, if_false]
  cases ho : s.over g with
  | true => exact ⟨_, rfl, by simp, by simp⟩
  | false =>
    refine ⟨_, rfl, fun h => ?_, by simp⟩
    have := (hi.fin g).2 (.inr h)
    rw [ho] at this; cases this

/-- Fiber 1 joins fiber 0 before it ends, and fiber 2 afterwards. -/
example : ∃ s, Reach step (init true) s [] ∧ s.pc s.run = .spinning 0 ∧ s.pc 0 = .done ∧ s.pc 1 = .waiting 0 ∧
    (∃ s', step s .spin = some (s', []) ∧ (s.pc 0 = .done → s'.pc s.run = .user) ∧ (s'.pc s.run = .user ∨ s'.pc s.run = .waiting 0)) := by
  have h : Reach step (init true) _ [] := reach_of_exec (es := [.switch 1, .join 0, .spin, .switch 0, .finish, .leave 2, .join 0]) rfl
  exact ⟨_, h, rfl, rfl, rfl, join_never_spins_partial h rfl⟩

end Verif.FssWait
