import Verif.StealStart
import Mathlib.Data.List.Nodup
import Mathlib.Data.List.Perm.Subperm

/-!
# Starting work-stealing threads: C83
-/

namespace Verif.StealStart

/-! ## Specification -/

/-- The threads that have called the constructor, with their places: in `work_stealing` the number of the call, in
`numa::work_stealing` the CPU. -/
def place (l : List (Nat × Nat)) : Obs → List (Nat × Nat)
  | .made w (.plain _) => l ++ [(w, l.length)]
  | .made w (.numa c _) => l ++ [(w, c)]
  | _ => l

def places (tr : List Obs) : List (Nat × Nat) := tr.foldl place []

/-- All threads use `work_stealing( n)`, and there are at most `n` of them. -/
structure PlainGroup (n : Nat) (tr : List Obs) : Prop where
  req : ∀ w r, Obs.made w r ∈ tr → r = .plain n
  few : (places tr).length ≤ n

/-- All threads use `numa::work_stealing` with the same topology, each with a CPU of its own. -/
structure NumaGroup (cpus : List Nat) (tr : List Obs) : Prop where
  req : ∀ w r, Obs.made w r ∈ tr → ∃ c ∈ cpus, r = .numa c cpus
  one : ((places tr).map (·.2)).Nodup

/-! ## Proofs -/

/-- The thread has arrived at the barrier in its first cycle, and waits. -/
def Pc.waits : Pc → Bool
  | .wait _ _ true => true
  | _ => false

/-- The thread has not arrived yet. -/
def Pc.early : Pc → Bool
  | .born _ _ | .once _ _ | .reg _ _ | .arrive _ _ => true
  | _ => false

/-- The thread has registered. -/
def Pc.registered : Pc → Bool
  | .arrive _ _ | .wait _ _ _ | .runs _ _ | .gone => true
  | _ => false

/-- The place of a thread that has called the constructor. -/
def Pc.at? (i : Nat) (cpus : List Nat) : Pc → Prop
  | .born r j | .once r j | .reg r j | .arrive r j | .runs r j =>
    j = i ∧ r.count = cpus.length ∧ r.victims = cpus ∧ ∀ c ∈ cpus, c < r.size
  | .wait r j y => j = i ∧ y = true ∧ r.count = cpus.length ∧ r.victims = cpus ∧ ∀ c ∈ cpus, c < r.size
  | .gone => True
  | .none | .bad => False

/-- The thread knows that the barrier, or the array, exists. -/
def Pc.stage : Pc → Nat
  | .none | .born _ _ => 0
  | .once _ _ => 1
  | .bad => 0
  | _ => 2

/-- What both kinds of groups have in common. -/
structure OneGroup (numa : Bool) (cpus : List Nat) (tr : List Obs) : Prop where
  req : ∀ w r, Obs.made w r ∈ tr → if numa then ∃ c ∈ cpus, r = .numa c cpus else r = .plain cpus.length
  rng : numa = false → cpus = List.range cpus.length
  few : numa = false → (places tr).length ≤ cpus.length
  one : numa = true → ((places tr).map (·.2)).Nodup

structure Inv (numa : Bool) (cpus : List Nat) (s : State) (P : List (Nat × Nat)) : Prop where
  nd : (P.map (·.1)).Nodup
  out : ∀ w, (∀ i, (w, i) ∉ P) → s.pc w = .none
  pl : ∀ w i, (w, i) ∈ P → (s.pc w).at? i cpus
  st1 : ∀ w, 1 ≤ (s.pc w).stage → s.bar ≠ none
  st2 : ∀ w, 2 ≤ (s.pc w).stage → s.size ≠ none
  siz : ∀ n, s.size = some n → ∀ c ∈ cpus, c < n
  reg : ∀ w i, (w, i) ∈ P → (s.pc w).registered = true → s.slot i = some w
  b0 : s.bar = none → ∀ w, (s.pc w).stage = 0
  b1 : ∀ n c, s.bar = some (n, c, true) → n = cpus.length ∧ 0 < c ∧ c + P.countP (fun p => (s.pc p.1).waits) = n ∧
    ∀ w i, (w, i) ∈ P → (s.pc w).early = true ∨ (s.pc w).waits = true
  b2 : ∀ n c, s.bar = some (n, c, false) → (∀ w i, (w, i) ∈ P → (s.pc w).early = false) ∧ P.length = cpus.length
  cnt : numa = false → s.counter = P.length ∧ P.map (·.2) = List.range P.length
  sub : ∀ p ∈ P, p.2 ∈ cpus

theorem places_append (t1 t2 : List Obs) : places (t1 ++ t2) = t2.foldl place (places t1) := by simp [places]

theorem le_foldl_max : ∀ (l : List Nat) (a c : Nat), c ≤ a ∨ c ∈ l → c ≤ l.foldl max a
  | [], a, c, h => by simpa using h
  | x :: l, a, c, h => by
    rw [List.foldl_cons]
    refine le_foldl_max l _ c ?_
    rcases h with h | h
    · exact .inl (Nat.le_trans h (Nat.le_max_left ..))
    · rcases List.mem_cons.1 h with rfl | h
      · exact .inl (Nat.le_max_right ..)
      · exact .inr h

/-- At most as many threads as places. -/
theorem pigeon {P : List (Nat × Nat)} {cpus : List Nat} (h1 : (P.map (·.2)).Nodup) (h2 : ∀ p ∈ P, p.2 ∈ cpus) : P.length ≤ cpus.length := by
  have : (P.map (·.2)).Subperm cpus := h1.subperm (by
    intro x hx
    obtain ⟨p, hp, rfl⟩ := List.mem_map.1 hx
    exact h2 p hp)
  simpa using this.length_le

/-- As many threads as places: every place is taken. -/
theorem all_taken {P : List (Nat × Nat)} {cpus : List Nat} (h1 : (P.map (·.2)).Nodup) (h2 : ∀ p ∈ P, p.2 ∈ cpus)
    (h3 : P.length = cpus.length) {c : Nat} (hc : c ∈ cpus) : ∃ w, (w, c) ∈ P := by
  have h4 : (P.map (·.2)).Subperm cpus := h1.subperm (by
    intro x hx
    obtain ⟨p, hp, rfl⟩ := List.mem_map.1 hx
    exact h2 p hp)
  have h5 : (P.map (·.2)).Perm cpus := h4.perm_of_length_le (by simp [h3])
  obtain ⟨p, hp, rfl⟩ := List.mem_map.1 (h5.mem_iff.2 hc)
  exact ⟨p.1, hp⟩

theorem countP_upd {P : List (Nat × Nat)} (hnd : (P.map (·.1)).Nodup) {w i : Nat} (hw : (w, i) ∈ P) {pc pc' : Nat → Pc}
    (ho : ∀ v, v ≠ w → pc' v = pc v) (h1 : (pc w).waits = false) (h2 : (pc' w).waits = true) :
    P.countP (fun p => (pc' p.1).waits) = P.countP (fun p => (pc p.1).waits) + 1 := by
  induction P with
  | nil => cases hw
  | cons a P ih =>
    obtain ⟨v, j⟩ := a
    simp only [List.map_cons, List.nodup_cons] at hnd
    by_cases e : v = w
    · subst e
      have : P.countP (fun p => (pc' p.1).waits) = P.countP (fun p => (pc p.1).waits) := by
        apply List.countP_congr
        intro p hp
        have : p.1 ≠ v := fun e => hnd.1 (e ▸ List.mem_map_of_mem hp)
        rw [ho _ this]
      simp [List.countP_cons, h1, h2, this]
    · have hm : (w, i) ∈ P := by
        rcases List.mem_cons.1 hw with h | h
        · cases h; exact absurd rfl e
        · exact h
      have := ih hnd.2 hm
      simp only [List.countP_cons, ho v e, this]
      omega

theorem countP_same {P : List (Nat × Nat)} {w : Nat} {pc pc' : Nat → Pc}
    (ho : ∀ v, v ≠ w → pc' v = pc v) (h : (pc' w).waits = (pc w).waits) :
    P.countP (fun p => (pc' p.1).waits) = P.countP (fun p => (pc p.1).waits) := by
  apply List.countP_congr
  intro p _
  by_cases e : p.1 = w
  · rw [e, h]
  · rw [ho _ e]

variable {numa : Bool} {cpus : List Nat} {s s' : State} {P : List (Nat × Nat)}

/-- Who has called the constructor. -/
theorem Inv.mem (hi : Inv numa cpus s P) {w : Nat} (h : s.pc w ≠ .none) : ∃ i, (w, i) ∈ P :=
  Classical.byContradiction fun hn => h (hi.out w fun i hm => hn ⟨i, hm⟩)

/-- Thread `w` goes to `p`; the barrier is not concerned. -/
theorem Inv.move (hi : Inv numa cpus s P) {w : Nat} {p : Pc} (hc : s'.counter = s.counter) (hpc : s'.pc = upd s.pc w p)
    (hne : s.pc w ≠ .none) (hw : p.waits = (s.pc w).waits) (he : p.early = (s.pc w).early)
    (hbar : s'.bar = s.bar) (hsz : ∀ n, s.size = some n → s'.size = some n) (hsz' : ∀ n, s'.size = some n → ∀ c ∈ cpus, c < n)
    (h1 : 1 ≤ p.stage → s.bar ≠ none) (h2 : 2 ≤ p.stage → s'.size ≠ none) (hb0 : s.bar = none → p.stage = 0)
    (hat : ∀ i, (w, i) ∈ P → p.at? i cpus) (hreg : ∀ v i, (v, i) ∈ P → (s'.pc v).registered = true → s'.slot i = some v) : Inv numa cpus s' P := by
  have ho : ∀ v, v ≠ w → s'.pc v = s.pc v := fun v hv => by rw [hpc, upd_other _ _ hv]
  have hs : s'.pc w = p := by rw [hpc, upd_same]
  refine ⟨hi.nd, ?_, ?_, ?_, ?_, hsz', hreg, ?_, ?_, ?_, ?_, hi.sub⟩
  · intro v hv
    have h := hi.out v hv
    have e : v ≠ w := by rintro rfl; exact hne h
    rw [ho v e]; exact h
  · intro v i hv
    by_cases e : v = w
    · subst e; rw [hs]; exact hat i hv
    · rw [ho v e]; exact hi.pl v i hv
  · intro v hv
    rw [hbar]
    by_cases e : v = w
    · subst e; rw [hs] at hv; exact h1 hv
    · rw [ho v e] at hv; exact hi.st1 v hv
  · intro v hv
    by_cases e : v = w
    · subst e; rw [hs] at hv; exact h2 hv
    · rw [ho v e] at hv
      have := hi.st2 v hv
      intro hn
      cases h : s.size with
      | none => exact this h
      | some n => rw [hsz n h] at hn; cases hn
  · intro hb v
    rw [hbar] at hb
    by_cases e : v = w
    · subst e; rw [hs]; exact hb0 hb
    · rw [ho v e]; exact hi.b0 hb v
  · intro n c hb
    rw [hbar] at hb
    obtain ⟨h3, h4, h5, h6⟩ := hi.b1 n c hb
    refine ⟨h3, h4, ?_, ?_⟩
    · rw [countP_same ho (by rw [hs, hw])]; exact h5
    · intro v i hv
      have := h6 v i hv
      by_cases e : v = w
      · subst e; rw [hs, hw, he]; exact this
      · rw [ho v e]; exact this
  · intro n c hb
    rw [hbar] at hb
    obtain ⟨h3, h4⟩ := hi.b2 n c hb
    refine ⟨fun v i hv => ?_, h4⟩
    have := h3 v i hv
    by_cases e : v = w
    · subst e; rw [hs, he]; exact this
    · rw [ho v e]; exact this
  · rw [hc]; exact hi.cnt

theorem Inv.one (hi : Inv numa cpus s P) {tr : List Obs} (hg : OneGroup numa cpus tr) (hP : P = places tr) : (P.map (·.2)).Nodup := by
  cases hn : numa with
  | true => rw [hP]; exact hg.one hn
  | false => rw [(hi.cnt hn).2]; exact List.nodup_range

/-- The steps of the constructor. -/
theorem go_step (hi : Inv numa cpus s P) (hone : (P.map (·.2)).Nodup) {w : Nat} {o : List Obs} (hs : step s (.go w) = some (s', o)) :
    Inv numa cpus s' P ∧ ∀ v, Obs.ub v ∉ o := by
  simp only [step] at hs
  split at hs
  · -- the barrier
    rename_i r i hp
    obtain ⟨k, hk⟩ := hi.mem (w := w) (by rw [hp]; simp)
    have hat := hi.pl w k hk
    rw [hp] at hat
    have hreg : ∀ v j, (v, j) ∈ P → (upd s.pc w (.once r i) v).registered = true → s.slot j = some v := by
      intro v j hv hr
      rw [upd_apply] at hr
      split at hr
      · cases hr
      · exact hi.reg v j hv hr
    have hat' : ∀ j, (w, j) ∈ P → (Pc.once r i).at? j cpus := fun j hj => by have := hi.pl w j hj; rw [hp] at this; exact this
    split at hs
    · rename_i b hb
      simp only [Option.some.injEq, Prod.mk.injEq] at hs
      obtain ⟨rfl, rfl⟩ := hs
      refine ⟨hi.move rfl rfl (by rw [hp]; simp) (by rw [hp]; rfl) (by rw [hp]; rfl) rfl (fun _ h => h) hi.siz (by rw [hb]; simp)
        (by simp [Pc.stage]) (by rw [hb]; simp) hat' hreg, by simp⟩
    · rename_i hb
      split at hs
      · rename_i h0
        exfalso
        have := hat.2.1
        have h5 := hi.sub _ hk
        rw [h0] at this
        rw [List.eq_nil_of_length_eq_zero this.symm] at h5
        cases h5
      · rename_i h0
        simp only [Option.some.injEq, Prod.mk.injEq] at hs
        obtain ⟨rfl, rfl⟩ := hs
        refine ⟨?_, by simp⟩
        have hst := hi.b0 hb
        -- nobody has come further than the beginning
        have hbo : ∀ v j, (v, j) ∈ P → (s.pc v).early = true ∧ (s.pc v).waits = false := by
          intro v j hv
          have h1 := hst v
          have h2 := hi.pl v j hv
          cases h3 : s.pc v <;> simp_all [Pc.stage, Pc.at?, Pc.early, Pc.waits]
        have ho : ∀ v, v ≠ w → upd s.pc w (.once r i) v = s.pc v := fun v hv => upd_other _ _ hv
        refine ⟨hi.nd, ?_, ?_, by simp, ?_, hi.siz, hreg, by simp, ?_, ?_, hi.cnt, hi.sub⟩
        · intro v hv
          have h := hi.out v hv
          have e : v ≠ w := by rintro rfl; exact hv k hk
          simp only [upd_other _ _ e]; exact h
        · intro v j hv
          by_cases e : v = w
          · subst e; simp only [upd_same]; exact hat' j hv
          · simp only [upd_other _ _ e]; exact hi.pl v j hv
        · intro v hv
          by_cases e : v = w
          · subst e; simp [Pc.stage] at hv
          · simp only [upd_other _ _ e] at hv; exact hi.st2 v hv
        · intro n c hb'
          simp only [Option.some.injEq, Prod.mk.injEq, and_true] at hb'
          obtain ⟨rfl, rfl⟩ := hb'
          refine ⟨hat.2.1, by omega, ?_, ?_⟩
          · have : P.countP (fun p => (upd s.pc w (.once r i) p.1).waits) = 0 := by
              rw [countP_same (w := w) (pc := s.pc) ho (by simp [Pc.waits, hp])]
              rw [List.countP_eq_zero]
              intro p hp'
              simp [(hbo p.1 p.2 hp').2]
            simp only [this]; rfl
          · intro v j hv
            by_cases e : v = w
            · subst e; simp [Pc.early]
            · simp only [upd_other _ _ e]; exact .inl (hbo v j hv).1
        · intro n c hb'; simp at hb'
  · -- `call_once`
    rename_i r i hp
    obtain ⟨k, hk⟩ := hi.mem (w := w) (by rw [hp]; simp)
    have hat := hi.pl w k hk
    rw [hp] at hat
    have hreg : ∀ v j, (v, j) ∈ P → (upd s.pc w (.reg r i) v).registered = true → s.slot j = some v := by
      intro v j hv hr
      rw [upd_apply] at hr
      split at hr
      · cases hr
      · exact hi.reg v j hv hr
    have hat' : ∀ j, (w, j) ∈ P → (Pc.reg r i).at? j cpus := fun j hj => by have := hi.pl w j hj; rw [hp] at this; exact this
    have hbn := hi.st1 w (by rw [hp]; simp [Pc.stage])
    split at hs
    · rename_i b hb
      simp only [Option.some.injEq, Prod.mk.injEq] at hs
      obtain ⟨rfl, rfl⟩ := hs
      exact ⟨hi.move rfl rfl (by rw [hp]; simp) (by rw [hp]; rfl) (by rw [hp]; rfl) rfl (fun _ h => h) hi.siz (fun _ => hbn)
        (by rw [hb]; simp) (fun h => absurd h hbn) hat' hreg, by simp⟩
    · rename_i hb
      simp only [Option.some.injEq, Prod.mk.injEq] at hs
      obtain ⟨rfl, rfl⟩ := hs
      refine ⟨hi.move rfl rfl (by rw [hp]; simp) (by rw [hp]; rfl) (by rw [hp]; rfl) rfl (by rw [hb]; simp) ?_ (fun _ => hbn)
        (by simp) (fun h => absurd h hbn) hat' ?_, by simp⟩
      · intro n hn; cases hn; exact hat.2.2.2
      · intro v i hv hr
        exfalso
        simp only [upd_apply] at hr
        split at hr
        · cases hr
        · refine hi.st2 v ?_ hb
          cases h : s.pc v <;> simp_all [Pc.registered, Pc.stage]
  · -- registers
    rename_i r i hp
    obtain ⟨k, hk⟩ := hi.mem (w := w) (by rw [hp]; simp)
    have hat := hi.pl w k hk
    rw [hp] at hat
    have hki : i = k := hat.1
    subst hki
    have hat' : ∀ j, (w, j) ∈ P → (Pc.arrive r i).at? j cpus := fun j hj => by have := hi.pl w j hj; rw [hp] at this; exact this
    have hbn := hi.st1 w (by rw [hp]; simp [Pc.stage])
    have hsn := hi.st2 w (by rw [hp]; simp [Pc.stage])
    split at hs
    · rename_i n hb
      rw [if_pos (hi.siz n hb i (hi.sub _ hk))] at hs
      simp only [Option.some.injEq, Prod.mk.injEq] at hs
      obtain ⟨rfl, rfl⟩ := hs
      refine ⟨hi.move rfl rfl (by rw [hp]; simp) (by rw [hp]; rfl) (by rw [hp]; rfl) rfl (fun _ h => h) hi.siz (fun _ => hbn)
        (fun _ => hsn) (fun h => absurd h hbn) hat' ?_, by simp⟩
      intro v j hv hr
      simp only [upd_apply] at hr ⊢
      by_cases e : v = w
      · subst e
        have : j = i := by
          have := hi.pl v j hv; rw [hp] at this; exact this.1.symm
        simp [this]
      · rw [if_neg e] at hr
        have : j ≠ i := by
          rintro rfl
          have h1 := List.inj_on_of_nodup_map hone hv hk rfl
          cases h1; exact e rfl
        rw [if_neg this]; exact hi.reg v j hv hr
    · rename_i hb; exact absurd hb hsn
  · -- arrives
    rename_i r i hp
    obtain ⟨k, hk⟩ := hi.mem (w := w) (by rw [hp]; simp)
    have hat := hi.pl w k hk
    rw [hp] at hat
    have hki : i = k := hat.1
    subst hki
    have hbn := hi.st1 w (by rw [hp]; simp [Pc.stage])
    have hsn := hi.st2 w (by rw [hp]; simp [Pc.stage])
    have hsl := hi.reg w i hk (by rw [hp]; rfl)
    have hreg : ∀ p : Pc, ∀ v i, (v, i) ∈ P → (upd s.pc w p v).registered = true → s.slot i = some v := by
      intro p v j hv hr
      rw [upd_apply] at hr
      split at hr
      · rename_i e; subst e; exact hi.reg v j hv (by rw [hp]; rfl)
      · exact hi.reg v j hv hr
    split at hs
    · rename_i n c y hb
      cases y with
      | false =>
        have := (hi.b2 n c hb).1 w i hk
        rw [hp] at this; cases this
      | true =>
        obtain ⟨h1, h2, h3, h4⟩ := hi.b1 n c hb
        have hle := pigeon hone hi.sub
        split at hs <;> simp only [Option.some.injEq, Prod.mk.injEq] at hs <;> obtain ⟨rfl, rfl⟩ := hs
        · -- the last one
          rename_i hc
          have hcnt := countP_upd (pc := s.pc) (pc' := upd s.pc w (.wait r i true)) hi.nd hk (fun v hv => upd_other _ _ hv)
            (by rw [hp]; rfl) (by rw [upd_same]; rfl)
          have hlen : P.countP (fun p => (upd s.pc w (.wait r i true) p.1).waits) = P.length := by
            have := List.countP_le_length (p := fun p : Nat × Nat => (upd s.pc w (.wait r i true) p.1).waits) (l := P)
            omega
          have hall : ∀ v j, (v, j) ∈ P → v ≠ w → (s.pc v).waits = true := by
            intro v j hv e
            have := List.countP_eq_length.1 hlen (v, j) hv
            simpa only [upd_other _ _ e] using this
          have hear : ∀ v j, (v, j) ∈ P → v ≠ w → (s.pc v).early = false := by
            intro v j hv e
            have := hall v j hv e
            cases h : s.pc v <;> simp_all [Pc.waits, Pc.early]
          refine ⟨⟨hi.nd, ?_, ?_, by simp, ?_, hi.siz, hreg _, by simp, by simp, ?_, hi.cnt, hi.sub⟩, by simp⟩
          · intro v hv
            have h := hi.out v hv
            have e : v ≠ w := by rintro rfl; exact hv i hk
            simp only [upd_other _ _ e]; exact h
          · intro v j hv
            by_cases e : v = w
            · subst e
              have := hi.pl v j hv; rw [hp] at this
              simp only [upd_same]; exact this
            · simp only [upd_other _ _ e]; exact hi.pl v j hv
          · intro v hv
            exact hsn
          · intro n' c' _
            refine ⟨?_, by omega⟩
            intro v j hv
            by_cases e : v = w
            · subst e; simp [Pc.early]
            · simp only [upd_other _ _ e]; exact hear v j hv e
        · -- waits
          rename_i hc
          have hcnt := countP_upd (pc := s.pc) (pc' := upd s.pc w (.wait r i true)) hi.nd hk (fun v hv => upd_other _ _ hv)
            (by rw [hp]; rfl) (by rw [upd_same]; rfl)
          refine ⟨⟨hi.nd, ?_, ?_, by simp, ?_, hi.siz, hreg _, by simp, ?_, by simp, hi.cnt, hi.sub⟩, by simp⟩
          · intro v hv
            have h := hi.out v hv
            have e : v ≠ w := by rintro rfl; exact hv i hk
            simp only [upd_other _ _ e]; exact h
          · intro v j hv
            by_cases e : v = w
            · subst e
              have := hi.pl v j hv; rw [hp] at this
              simp only [upd_same]; exact ⟨this.1, rfl, this.2⟩
            · simp only [upd_other _ _ e]; exact hi.pl v j hv
          · intro v hv
            exact hsn
          · intro n' c' h5
            simp only [Option.some.injEq, Prod.mk.injEq, and_true] at h5
            obtain ⟨rfl, rfl⟩ := h5
            refine ⟨h1, by omega, by simp only; omega, ?_⟩
            intro v j hv
            by_cases e : v = w
            · subst e; simp [Pc.waits]
            · simp only [upd_other _ _ e]; exact h4 v j hv
    · rename_i hb; exact absurd hb hbn
  · -- leaves
    rename_i r i y hp
    obtain ⟨k, hk⟩ := hi.mem (w := w) (by rw [hp]; simp)
    have hat := hi.pl w k hk
    rw [hp] at hat
    obtain ⟨-, rfl, hat⟩ := hat
    split at hs
    · rename_i n c y' hb
      split at hs
      · rename_i hy
        have hy' : y' = false := by cases y' <;> simp_all
        subst hy'
        simp only [Option.some.injEq, Prod.mk.injEq] at hs
        obtain ⟨rfl, rfl⟩ := hs
        obtain ⟨h1, h2⟩ := hi.b2 n c hb
        have ho : ∀ v, v ≠ w → upd s.pc w (.runs r i) v = s.pc v := fun v hv => upd_other _ _ hv
        refine ⟨⟨hi.nd, ?_, ?_, by simp [hb], ?_, hi.siz, ?_, by simp [hb], ?_, ?_, hi.cnt, hi.sub⟩, by simp⟩
        · intro v hv
          have h := hi.out v hv
          have e : v ≠ w := by rintro rfl; exact hv k hk
          simp only [upd_other _ _ e]; exact h
        · intro v j hv
          by_cases e : v = w
          · subst e
            have := hi.pl v j hv; rw [hp] at this
            simp only [upd_same]; exact ⟨this.1, this.2.2⟩
          · simp only [upd_other _ _ e]; exact hi.pl v j hv
        · intro v hv
          exact hi.st2 w (by rw [hp]; simp [Pc.stage])
        · intro v j hv hr
          simp only [upd_apply] at hr
          split at hr
          · rename_i e; subst e; exact hi.reg v j hv (by rw [hp]; rfl)
          · exact hi.reg v j hv hr
        · intro n' c' h; rw [show (({ s with pc := upd s.pc w (.runs r i) } : State)).bar = s.bar from rfl, hb] at h; cases h
        · intro n' c' h
          refine ⟨?_, h2⟩
          intro v j hv
          by_cases e : v = w
          · subst e; simp [Pc.early]
          · simp only [upd_other _ _ e]; exact h1 v j hv
      · cases hs
    · cases hs
  · cases hs

/-- The call of the constructor. -/
theorem make_step (hi : Inv numa cpus s P) {w : Nat} {r : Req} {o : List Obs} (hs : step s (.make w r) = some (s', o))
    (hr : if numa then ∃ c ∈ cpus, r = .numa c cpus else r = .plain cpus.length) (hrng : numa = false → cpus = List.range cpus.length)
    (hfew : numa = false → (place P (.made w r)).length ≤ cpus.length) (hone : numa = true → ((place P (.made w r)).map (·.2)).Nodup) :
    o = [.made w r] ∧ Inv numa cpus s' (place P (.made w r)) := by
  -- what both cases have in common
  have key : ∀ (i : Nat) (cnt : Nat), s.pc w = .none → i ∈ cpus → (r.count = cpus.length ∧ r.victims = cpus ∧ ∀ c ∈ cpus, c < r.size) →
      (numa = false → cnt = (P ++ [(w, i)]).length ∧ (P ++ [(w, i)]).map (·.2) = List.range (P ++ [(w, i)]).length) →
      (P ++ [(w, i)]).length ≤ cpus.length →
      Inv numa cpus { s with counter := cnt, pc := upd s.pc w (.born r i) } (P ++ [(w, i)]) := by
    intro i cnt hp hic hq hcnt hlen
    have hnew : ∀ j, (w, j) ∉ P := by
      intro j hj
      have := hi.pl w j hj
      rw [hp] at this; exact this
    have hne : ∀ v j, (v, j) ∈ P → v ≠ w := by rintro v j hv rfl; exact hnew j hv
    have hmem : ∀ v j, (v, j) ∈ P ++ [(w, i)] → (v, j) ∈ P ∨ (v = w ∧ j = i) := by
      intro v j hv; simpa using hv
    have hlt : P.length < cpus.length := by simp at hlen; omega
    refine ⟨?_, ?_, ?_, ?_, ?_, hi.siz, ?_, ?_, ?_, ?_, hcnt, ?_⟩
    · rw [List.map_append, List.nodup_append]
      refine ⟨hi.nd, by simp, ?_⟩
      intro a ha b hb
      simp only [List.map_cons, List.map_nil, List.mem_singleton] at hb
      obtain ⟨p, hp', rfl⟩ := List.mem_map.1 ha
      rw [hb]; exact hne p.1 p.2 hp'
    · intro v hv
      have e : v ≠ w := by rintro rfl; exact hv i (by simp)
      simp only [upd_other _ _ e]
      exact hi.out v fun j hj => hv j (by simp [hj])
    · intro v j hv
      rcases hmem v j hv with h | ⟨rfl, rfl⟩
      · simp only [upd_other _ _ (hne v j h)]; exact hi.pl v j h
      · simp only [upd_same]; exact ⟨rfl, hq⟩
    · intro v hv
      by_cases e : v = w
      · subst e; simp [Pc.stage] at hv
      · simp only [upd_other _ _ e] at hv; exact hi.st1 v hv
    · intro v hv
      by_cases e : v = w
      · subst e; simp [Pc.stage] at hv
      · simp only [upd_other _ _ e] at hv; exact hi.st2 v hv
    · intro v j hv hrg
      rcases hmem v j hv with h | ⟨rfl, rfl⟩
      · simp only [upd_other _ _ (hne v j h)] at hrg; exact hi.reg v j h hrg
      · simp [Pc.registered] at hrg
    · intro hb v
      by_cases e : v = w
      · subst e; simp [Pc.stage]
      · simp only [upd_other _ _ e]; exact hi.b0 hb v
    · intro n c hb
      obtain ⟨h3, h4, h5, h6⟩ := hi.b1 n c hb
      refine ⟨h3, h4, ?_, ?_⟩
      · rw [List.countP_append]
        simp only
        rw [countP_same (w := w) (pc := s.pc) (fun v hv => upd_other _ _ hv) (by rw [upd_same, hp]; rfl)]
        simpa [Pc.waits] using h5
      · intro v j hv
        rcases hmem v j hv with h | ⟨rfl, rfl⟩
        · simp only [upd_other _ _ (hne v j h)]; exact h6 v j h
        · simp [Pc.early]
    · intro n c hb
      have := (hi.b2 n c hb).2
      omega
    · intro p hp'
      rcases hmem p.1 p.2 hp' with h | ⟨-, h⟩
      · exact hi.sub p h
      · rw [h]; exact hic
  have nopl : s.pc w = .none ∨ s.pc w ≠ .none := by by_cases h : s.pc w = .none <;> simp [h]
  cases numa with
  | true =>
    simp only [if_true] at hr
    obtain ⟨c, hc, rfl⟩ := hr
    simp only [step] at hs
    split at hs
    · rename_i h; cases h
    · rename_i hp h
      cases h
      simp only [Option.some.injEq, Prod.mk.injEq] at hs
      obtain ⟨rfl, rfl⟩ := hs
      refine ⟨rfl, key c s.counter hp hc ⟨rfl, rfl, fun c hc => Nat.lt_succ_of_le (le_foldl_max cpus 0 c (.inr hc))⟩ (by simp) ?_⟩
      refine pigeon (hone rfl) ?_
      intro p hp'
      simp only [place, List.mem_append, List.mem_singleton] at hp'
      rcases hp' with h | h
      · exact hi.sub p h
      · rw [h]; exact hc
    · cases hs
  | false =>
    simp only [Bool.false_eq_true, if_false] at hr
    subst hr
    have hrng := hrng rfl
    obtain ⟨h1, h2⟩ := hi.cnt rfl
    have hlen := hfew rfl
    simp only [place, List.length_append, List.length_singleton] at hlen
    simp only [step] at hs
    split at hs
    · rename_i hp h
      simp only [Option.some.injEq, Prod.mk.injEq] at hs
      obtain ⟨rfl, rfl⟩ := hs
      rw [h1]
      refine ⟨rfl, key P.length (P.length + 1) hp ?_ ⟨rfl, hrng.symm, ?_⟩ ?_ (by simpa using hlen)⟩
      · rw [hrng]; exact List.mem_range.2 (by omega)
      · intro c hc; rw [hrng] at hc; exact List.mem_range.1 hc
      · intro _; refine ⟨by simp, ?_⟩
        rw [List.map_append, h2]; simp [List.range_succ]
    · rename_i h; cases h
    · cases hs

theorem inv_init (hrng : numa = false → cpus = List.range cpus.length) : Inv numa cpus init [] where
  nd := by simp
  out := by simp [init]
  pl := by simp
  st1 := by simp [init, Pc.stage]
  st2 := by simp [init, Pc.stage]
  siz := by simp [init]
  reg := by simp
  b0 := by simp [init, Pc.stage]
  b1 := by simp [init]
  b2 := by simp [init]
  cnt := by simp [init]
  sub := by simp

theorem place_prefix (tr o : List Obs) : ∃ l, places (tr ++ o) = places tr ++ l := by
  rw [places_append]
  generalize places tr = P
  induction o generalizing P with
  | nil => exact ⟨[], by simp⟩
  | cons a o ih =>
    obtain ⟨l, hl⟩ := ih (place P a)
    have : ∃ l', place P a = P ++ l' := by
      cases a with
      | made w r => cases r <;> exact ⟨_, rfl⟩
      | _ => exact ⟨[], by simp [place]⟩
    obtain ⟨l', hl'⟩ := this
    exact ⟨l' ++ l, by rw [List.foldl_cons, hl, hl', List.append_assoc]⟩

/-- The beginning of the history of a group is one. -/
theorem OneGroup.before {tr o : List Obs} (h : OneGroup numa cpus (tr ++ o)) : OneGroup numa cpus tr := by
  obtain ⟨l, hl⟩ := place_prefix tr o
  refine ⟨fun w r hm => h.req w r (by simp [hm]), h.rng, ?_, ?_⟩
  · intro hn; have := h.few hn; rw [hl] at this; simp at this; omega
  · intro hn; have := h.one hn; rw [hl, List.map_append] at this; exact (List.nodup_append.1 this).1

/-- What happens to a thread that has started. -/
theorem other_step (hi : Inv numa cpus s P) (hone : (P.map (·.2)).Nodup) {e : Event} {o : List Obs}
    (he : (∃ w i, e = .ask w i) ∨ ∃ w, e = .end_ w) (hs : step s e = some (s', o)) :
    Inv numa cpus s' P ∧ (∀ v, Obs.ub v ∉ o) ∧ (∀ l, o.foldl place l = l) ∧ (∀ w r, Obs.made w r ∉ o) ∧
      ∀ w v, Obs.asked w v ∈ o → ∃ i, (v, i) ∈ P ∧ ∀ j, (w, j) ∈ P → j ≠ i := by
  rcases he with ⟨w, i, rfl⟩ | ⟨w, rfl⟩
  · simp only [step] at hs
    split at hs
    · rename_i r j hp
      obtain ⟨k, hk⟩ := hi.mem (w := w) (by rw [hp]; simp)
      have hat := hi.pl w k hk
      rw [hp] at hat
      obtain ⟨rfl, h1, h2, h3⟩ := hat
      have hbn := hi.st1 w (by rw [hp]; simp [Pc.stage])
      have hsn := hi.st2 w (by rw [hp]; simp [Pc.stage])
      split at hs
      · rename_i hv
        rw [h2] at hv
        obtain ⟨hv, hne⟩ := hv
        -- the barrier is open, so everybody has registered
        have hslot : ∃ v, (v, i) ∈ P ∧ s.slot i = some v := by
          cases hb : s.bar with
          | none => exact absurd hb hbn
          | some b =>
            obtain ⟨n, c, y⟩ := b
            cases y with
            | true => rcases (hi.b1 n c hb).2.2.2 w j hk with h | h <;> rw [hp] at h <;> cases h
            | false =>
              obtain ⟨h4, h5⟩ := hi.b2 n c hb
              obtain ⟨v, hv'⟩ := all_taken hone hi.sub h5 hv
              refine ⟨v, hv', hi.reg v i hv' ?_⟩
              have h6 := h4 v i hv'
              have h7 := hi.pl v i hv'
              cases h : s.pc v <;> simp_all [Pc.early, Pc.at?, Pc.registered]
        obtain ⟨v, hvP, hsl⟩ := hslot
        split at hs
        · rename_i n v' hsz hsl'
          rw [hsl] at hsl'; cases hsl'
          rw [if_pos (hi.siz n hsz i hv)] at hs
          simp only [Option.some.injEq, Prod.mk.injEq] at hs
          obtain ⟨rfl, rfl⟩ := hs
          refine ⟨hi, by simp, fun l => rfl, by simp, ?_⟩
          intro w' v' h
          simp only [List.mem_singleton, Obs.asked.injEq] at h
          obtain ⟨rfl, rfl⟩ := h
          refine ⟨i, hvP, ?_⟩
          intro j' hj'
          have := hi.pl w' j' hj'
          rw [hp] at this
          rw [← this.1]; exact Ne.symm hne
        · rename_i hno
          exfalso
          cases h : s.size with
          | none => exact hsn h
          | some n => exact hno n v h hsl
      · cases hs
    · cases hs
  · simp only [step] at hs
    split at hs
    · rename_i r j hp
      simp only [Option.some.injEq, Prod.mk.injEq] at hs
      obtain ⟨rfl, rfl⟩ := hs
      have hbn := hi.st1 w (by rw [hp]; simp [Pc.stage])
      have hsn := hi.st2 w (by rw [hp]; simp [Pc.stage])
      refine ⟨hi.move rfl rfl (by rw [hp]; simp) (by rw [hp]; rfl) (by rw [hp]; rfl) rfl (fun _ h => h) hi.siz (fun _ => hbn) (fun _ => hsn)
        (fun h => absurd h hbn) (fun _ _ => trivial) ?_, by simp, fun l => rfl, by simp, by simp⟩
      intro v i hv hr
      simp only [upd_apply] at hr
      split at hr
      · rename_i e; subst e; exact hi.reg v i hv (by rw [hp]; rfl)
      · exact hi.reg v i hv hr
    · cases hs

theorem reach_inv {tr : List Obs} (h : Reach step init s tr) : OneGroup numa cpus tr →
    Inv numa cpus s (places tr) ∧ ∀ v, Obs.ub v ∉ tr := by
  refine Reach.inv (fun s tr => OneGroup numa cpus tr → Inv numa cpus s (places tr) ∧ ∀ v, Obs.ub v ∉ tr) ?_ ?_ h
  · intro hg; exact ⟨inv_init hg.rng, by simp⟩
  · intro s tr e s' o _ ih hs hg
    obtain ⟨hi, hu⟩ := ih hg.before
    have hone := hi.one hg.before rfl
    rw [places_append]
    have fin : ∀ {P'}, Inv numa cpus s' P' → o.foldl place (places tr) = P' → (∀ v, Obs.ub v ∉ o) →
        Inv numa cpus s' (o.foldl place (places tr)) ∧ ∀ v, Obs.ub v ∉ tr ++ o := by
      intro P' h1 h2 h3
      refine ⟨h2 ▸ h1, fun v hv => ?_⟩
      rcases List.mem_append.1 hv with h | h
      · exact hu v h
      · exact h3 v h
    cases e with
    | make w r =>
      have ho : o = [.made w r] := by
        simp only [step] at hs
        split at hs <;> simp only [Option.some.injEq, Prod.mk.injEq, reduceCtorEq] at hs <;> exact hs.2.symm
      subst ho
      have hpl : places (tr ++ [.made w r]) = place (places tr) (.made w r) := by rw [places_append]; rfl
      obtain ⟨-, h1⟩ := make_step hi hs (hg.req w r (by simp)) hg.rng (fun hn => by have := hg.few hn; rw [hpl] at this; exact this)
        (fun hn => by have := hg.one hn; rw [hpl] at this; exact this)
      exact fin h1 rfl (by simp)
    | go w =>
      obtain ⟨h1, h2⟩ := go_step hi hone hs
      refine fin h1 ?_ h2
      have : o = [] ∨ o = [.left w] ∨ o = [.ub w] := by
        simp only [step] at hs
        repeat' split at hs
        all_goals first
          | (cases hs; done)
          | (cases hs; simp [State.bad])
      rcases this with rfl | rfl | rfl <;> rfl
    | ask w i =>
      obtain ⟨h1, h2, h3, -, -⟩ := other_step hi hone (.inl ⟨w, i, rfl⟩) hs
      exact fin h1 (h3 _) h2
    | end_ w =>
      obtain ⟨h1, h2, h3, -, -⟩ := other_step hi hone (.inr ⟨w, rfl⟩) hs
      exact fin h1 (h3 _) h2

/-- Who has left the constructor finds that all are there. -/
theorem left_full {tr : List Obs} (h : Reach step init s tr) : OneGroup numa cpus tr →
    ∀ t1 t2 w, tr = t1 ++ .left w :: t2 → (places t1).length = cpus.length := by
  refine Reach.inv (fun s tr => OneGroup numa cpus tr → ∀ t1 t2 w, tr = t1 ++ .left w :: t2 → (places t1).length = cpus.length) ?_ ?_ h
  · intro _ t1 t2 w ht; simp at ht
  · intro s tr e s' o hr ih hs hg t1 t2 w ht
    by_cases ho : Obs.left w ∈ o
    · have hgo : e = .go w ∧ o = [.left w] ∧ ∃ r i, s'.pc w = .runs r i := by
        cases e with
        | make v r =>
          simp only [step] at hs
          split at hs <;> simp only [Option.some.injEq, Prod.mk.injEq, reduceCtorEq] at hs <;> obtain ⟨-, rfl⟩ := hs <;> simp at ho
        | go v =>
          simp only [step] at hs
          repeat' split at hs
          all_goals first
            | (cases hs; done)
            | (cases hs; simp [State.bad] at ho; done)
            | (cases hs; simp at ho; subst ho; exact ⟨rfl, rfl, _, _, upd_same _ _ _⟩)
        | ask v i =>
          simp only [step] at hs
          repeat' split at hs
          all_goals first
            | (cases hs; done)
            | (cases hs; simp [State.bad] at ho; done)
        | end_ v =>
          simp only [step] at hs
          split at hs
          · cases hs; simp at ho
          · cases hs
      obtain ⟨rfl, rfl, r, i, hp⟩ := hgo
      have hi := (reach_inv (.tail _ hr hs) hg).1
      have hpl : places (tr ++ [.left w]) = places tr := by rw [places_append]; rfl
      rw [hpl] at hi
      have hfull : (places tr).length = cpus.length := by
        obtain ⟨k, hk⟩ := hi.mem (w := w) (by rw [hp]; simp)
        have hbn := hi.st1 w (by rw [hp]; simp [Pc.stage])
        cases hb : s'.bar with
        | none => exact absurd hb hbn
        | some b =>
          obtain ⟨n, c, y⟩ := b
          cases y with
          | true => rcases (hi.b1 n c hb).2.2.2 w k hk with h | h <;> rw [hp] at h <;> cases h
          | false => exact (hi.b2 n c hb).2
      -- is it this observation, or a former one?
      rcases List.eq_nil_or_concat t2 with rfl | ⟨t3, y, rfl⟩
      · obtain ⟨h1, -⟩ := List.append_inj' ht rfl
        rw [← h1]; exact hfull
      · rw [List.concat_eq_append, ← List.cons_append, ← List.append_assoc] at ht
        obtain ⟨h1, -⟩ := List.append_inj' ht rfl
        exact ih hg.before t1 t3 w h1
    · rcases List.append_eq_append_iff.1 ht with ⟨a, h1, h2⟩ | ⟨a, h1, h2⟩
      · exact absurd (by rw [h2]; simp) ho
      · cases a with
        | nil => simp only [List.nil_append] at h2; exact absurd (by rw [← h2]; simp) ho
        | cons x a =>
          simp only [List.cons_append, List.cons.injEq] at h2
          obtain ⟨rfl, -⟩ := h2
          exact ih hg.before t1 a w h1

theorem mem_place {v i : Nat} (o : List Obs) : ∀ P : List (Nat × Nat), (v, i) ∈ o.foldl place P → (v, i) ∈ P ∨ ∃ r, Obs.made v r ∈ o := by
  induction o with
  | nil => intro P h; exact .inl h
  | cons a o ih =>
    intro P h
    rcases ih _ h with h | ⟨r, h⟩
    · cases a with
      | made w r =>
        have : (v, i) ∈ P ∨ v = w := by
          cases r <;> simp only [place, List.mem_append, List.mem_singleton, Prod.mk.injEq] at h
          · exact h.imp id (·.1)
          · exact h.imp id (·.1)
        rcases this with h | rfl
        · exact .inl h
        · exact .inr ⟨r, by simp⟩
      | _ => exact .inl h
    · exact .inr ⟨r, by simp [h]⟩

theorem made_of_place {tr : List Obs} (v i : Nat) (h : (v, i) ∈ places tr) : ∃ r, Obs.made v r ∈ tr := by
  rcases mem_place tr [] h with h | h
  · cases h
  · exact h

theorem place_of_made {tr : List Obs} {w : Nat} {r : Req} (h : Obs.made w r ∈ tr) : ∃ i, (w, i) ∈ places tr := by
  obtain ⟨t1, t2, rfl⟩ := List.append_of_mem h
  obtain ⟨l, hl⟩ := place_prefix (t1 ++ [.made w r]) t2
  rw [List.append_assoc, List.singleton_append] at hl
  rw [hl, places_append]
  cases r with
  | plain n => exact ⟨(places t1).length, by simp [place]⟩
  | numa c l => exact ⟨c, by simp [place]⟩

/-- Who is asked for work is another thread of the group. -/
theorem asked_other {tr : List Obs} (h : Reach step init s tr) : OneGroup numa cpus tr →
    ∀ w v, Obs.asked w v ∈ tr → v ≠ w ∧ ∃ r, Obs.made v r ∈ tr := by
  refine Reach.inv (fun s tr => OneGroup numa cpus tr → ∀ w v, Obs.asked w v ∈ tr → v ≠ w ∧ ∃ r, Obs.made v r ∈ tr) (by simp) ?_ h
  intro s tr e s' o hr ih hs hg w v hm
  obtain ⟨hi, -⟩ := reach_inv hr hg.before
  have hone := hi.one hg.before rfl
  rcases List.mem_append.1 hm with h | h
  · obtain ⟨h1, r, h2⟩ := ih hg.before w v h
    exact ⟨h1, r, by simp [h2]⟩
  · cases e with
    | make v r =>
      simp only [step] at hs
      split at hs <;> simp only [Option.some.injEq, Prod.mk.injEq, reduceCtorEq] at hs <;> obtain ⟨-, rfl⟩ := hs <;> simp at h
    | go v =>
      simp only [step] at hs
      repeat' split at hs
      all_goals first
        | (cases hs; done)
        | (cases hs; simp [State.bad] at h; done)
    | ask u i =>
      obtain ⟨-, -, -, -, h5⟩ := other_step hi hone (.inl ⟨u, i, rfl⟩) hs
      obtain ⟨i, h6, h7⟩ := h5 w v h
      obtain ⟨r, h8⟩ := made_of_place v i h6
      exact ⟨by rintro rfl; exact h7 i h6 rfl, r, by simp [h8]⟩
    | end_ u =>
      simp only [step] at hs
      split at hs
      · cases hs; simp at h
      · cases hs

/-! ### Everybody gets through -/

/-- How far a thread is from the end of the constructor. -/
def Pc.rank : Pc → Nat
  | .born _ _ => 5
  | .once _ _ => 4
  | .reg _ _ => 3
  | .arrive _ _ => 2
  | .wait _ _ _ => 1
  | _ => 0

def total (s : State) (P : List (Nat × Nat)) : Nat := (P.map fun p => (s.pc p.1).rank).sum

theorem total_upd {P : List (Nat × Nat)} {w i : Nat} (hw : (w, i) ∈ P) (ho : ∀ v, v ≠ w → s'.pc v = s.pc v)
    (h : (s'.pc w).rank < (s.pc w).rank) : total s' P < total s P := by
  have le : ∀ P : List (Nat × Nat), total s' P ≤ total s P := by
    intro P
    induction P with
    | nil => exact Nat.le_refl _
    | cons a P ih =>
      simp only [total, List.map_cons, List.sum_cons] at ih ⊢
      by_cases e : a.1 = w
      · rw [e]; omega
      · rw [ho _ e]; omega
  induction P with
  | nil => cases hw
  | cons a P ih =>
    have h1 := le P
    simp only [total, List.map_cons, List.sum_cons] at ih h1 ⊢
    rcases List.mem_cons.1 hw with h2 | h2
    · have : a.1 = w := by rw [← h2]
      rw [this]; omega
    · have := ih h2
      by_cases e : a.1 = w
      · rw [e]; omega
      · rw [ho _ e]; omega

theorem total_zero {P : List (Nat × Nat)} (h : ∀ p ∈ P, (s.pc p.1).rank = 0) : total s P = 0 := by
  induction P with
  | nil => rfl
  | cons a P ih =>
    have h1 := ih fun p hp => h p (List.mem_cons_of_mem _ hp)
    have h2 := h a List.mem_cons_self
    simp only [total, List.map_cons, List.sum_cons] at h1 ⊢
    omega

theorem zero_of_total {P : List (Nat × Nat)} (h : total s P = 0) {p : Nat × Nat} (hp : p ∈ P) : (s.pc p.1).rank = 0 := by
  induction P with
  | nil => cases hp
  | cons a P ih =>
    simp only [total, List.map_cons, List.sum_cons] at h ih
    rcases List.mem_cons.1 hp with rfl | hp
    · omega
    · exact ih (by omega) hp

/-- Some thread can go on. -/
theorem progress (hi : Inv numa cpus s P) (hone : (P.map (·.2)).Nodup) (hf : P.length = cpus.length) (h : 0 < total s P) :
    ∃ w s' o, step s (.go w) = some (s', o) ∧ total s' P < total s P ∧ ((s'.pc w).rank = 0 → o = [.left w]) ∧
      (∀ v, v ≠ w → s'.pc v = s.pc v) ∧ 0 < (s.pc w).rank := by
  -- a thread at `p` that moves on
  have mv : ∀ (w i : Nat) (s' : State) (o : List Obs) (p : Pc), (w, i) ∈ P → step s (.go w) = some (s', o) → s'.pc = upd s.pc w p →
      p.rank < (s.pc w).rank → (p.rank = 0 → o = [.left w]) →
      ∃ w s' o, step s (.go w) = some (s', o) ∧ total s' P < total s P ∧ ((s'.pc w).rank = 0 → o = [.left w]) ∧
        (∀ v, v ≠ w → s'.pc v = s.pc v) ∧ 0 < (s.pc w).rank := by
    intro w i s' o p hw hs hp hr ho
    have h1 : ∀ v, v ≠ w → s'.pc v = s.pc v := fun v hv => by rw [hp, upd_other _ _ hv]
    have h2 : s'.pc w = p := by rw [hp, upd_same]
    exact ⟨w, s', o, hs, total_upd hw h1 (by rw [h2]; exact hr), by rw [h2]; exact ho, h1, by omega⟩
  by_cases he : ∃ w i, (w, i) ∈ P ∧ (s.pc w).early = true
  · obtain ⟨w, i, hw, he⟩ := he
    have hat := hi.pl w i hw
    cases hp : s.pc w with
    | born r j =>
      rw [hp] at hat
      cases hb : s.bar with
      | some b => exact mv w i { s with pc := upd s.pc w (.once r j) } [] (.once r j) hw (by simp only [step, hp, hb]) rfl (by rw [hp]; simp [Pc.rank]) (by simp [Pc.rank])
      | none =>
        have hne : r.count ≠ 0 := by
          intro h0
          have h1 := hat.2.1
          have h5 := hi.sub _ hw
          rw [h0] at h1
          rw [List.eq_nil_of_length_eq_zero h1.symm] at h5
          cases h5
        exact mv w i { s with bar := some (r.count, r.count, true), pc := upd s.pc w (.once r j) } [] (.once r j) hw
          (by simp only [step, hp, hb, if_neg hne]) rfl (by rw [hp]; simp [Pc.rank]) (by simp [Pc.rank])
    | once r j =>
      cases hb : s.size with
      | some b => exact mv w i { s with pc := upd s.pc w (.reg r j) } [] (.reg r j) hw (by simp only [step, hp, hb]) rfl (by rw [hp]; simp [Pc.rank]) (by simp [Pc.rank])
      | none =>
        exact mv w i { s with size := some r.size, slot := fun _ => none, pc := upd s.pc w (.reg r j) } [] (.reg r j) hw
          (by simp only [step, hp, hb]) rfl (by rw [hp]; simp [Pc.rank]) (by simp [Pc.rank])
    | reg r j =>
      rw [hp] at hat
      obtain ⟨rfl, -⟩ := hat
      cases hb : s.size with
      | some n =>
        have := hi.siz n hb j (hi.sub _ hw)
        exact mv w j { s with slot := upd s.slot j (some w), pc := upd s.pc w (.arrive r j) } [] (.arrive r j) hw
          (by simp only [step, hp, hb, if_pos this]) rfl (by rw [hp]; simp [Pc.rank]) (by simp [Pc.rank])
      | none => exact absurd hb (hi.st2 w (by rw [hp]; simp [Pc.stage]))
    | arrive r j =>
      cases hb : s.bar with
      | some b =>
        obtain ⟨n, c, y⟩ := b
        by_cases hc : c - 1 = 0
        · exact mv w i { s with bar := some (n, n, !y), pc := upd s.pc w (.runs r j) } [.left w] (.runs r j) hw
            (by simp only [step, hp, hb, if_pos hc]) rfl (by rw [hp]; simp [Pc.rank]) (by simp)
        · exact mv w i { s with bar := some (n, c - 1, y), pc := upd s.pc w (.wait r j y) } [] (.wait r j y) hw
            (by simp only [step, hp, hb, if_neg hc]) rfl (by rw [hp]; simp [Pc.rank]) (by simp [Pc.rank])
      | none => exact absurd hb (hi.st1 w (by rw [hp]; simp [Pc.stage]))
    | _ => rw [hp] at he; cases he
  · have he' : ∀ w i, (w, i) ∈ P → (s.pc w).early = false := by
      intro w i hw
      cases h : (s.pc w).early with
      | false => rfl
      | true => exact absurd ⟨w, i, hw, h⟩ he
    -- somebody is not through
    have hx : ∃ w i, (w, i) ∈ P ∧ 0 < (s.pc w).rank := by
      refine Classical.byContradiction fun hn => ?_
      have : total s P = 0 := by
        refine total_zero ?_
        intro p hp
        exact Classical.byContradiction fun h0 => hn ⟨p.1, p.2, hp, by omega⟩
      omega
    obtain ⟨w, i, hw, hr⟩ := hx
    have hat := hi.pl w i hw
    have hew := he' w i hw
    cases hp : s.pc w with
    | wait r j y =>
      rw [hp] at hat
      obtain ⟨-, rfl, -⟩ := hat
      cases hb : s.bar with
      | some b =>
        obtain ⟨n, c, y⟩ := b
        cases y with
        | true =>
          exfalso
          obtain ⟨h1, h2, h3, h4⟩ := hi.b1 n c hb
          have : P.countP (fun p => (s.pc p.1).waits) = P.length := by
            rw [List.countP_eq_length]
            intro p hp'
            rcases h4 p.1 p.2 hp' with h | h
            · rw [he' p.1 p.2 hp'] at h; cases h
            · exact h
          omega
        | false =>
          exact mv w i { s with pc := upd s.pc w (.runs r j) } [.left w] (.runs r j) hw
            (by simp only [step, hp, hb]; simp) rfl (by rw [hp]; simp [Pc.rank]) (by simp)
      | none => exact absurd hb (hi.st1 w (by rw [hp]; simp [Pc.stage]))
    | _ => rw [hp] at hew hr; first | (cases hew; done) | (simp [Pc.rank] at hr)

/-- A constructor that is over has returned. -/
theorem through {tr : List Obs} (h : Reach step init s tr) : ∀ w, ((∃ r i, s.pc w = .runs r i) ∨ s.pc w = .gone) → Obs.left w ∈ tr := by
  refine Reach.inv (fun s tr => ∀ w, ((∃ r i, s.pc w = .runs r i) ∨ s.pc w = .gone) → Obs.left w ∈ tr) (by simp [init]) ?_ h
  intro s tr e s' o _ ih hs w hw
  -- thread `v` moves to `p`
  have mv : ∀ (v : Nat) (p : Pc), s'.pc = upd s.pc v p → ((∃ r i, p = .runs r i) ∨ p = .gone → Obs.left v ∈ o ∨ ∃ r i, s.pc v = .runs r i) →
      Obs.left w ∈ tr ++ o := by
    intro v p hp hl
    rw [hp] at hw
    by_cases e : w = v
    · subst e
      rw [upd_same] at hw
      rcases hl hw with h | h
      · simp [h]
      · simp [ih w (.inl h)]
    · rw [upd_other _ _ e] at hw
      simp [ih w hw]
  cases e with
  | make v r =>
    simp only [step] at hs
    split at hs
    · cases hs; exact mv v _ rfl (by simp)
    · cases hs; exact mv v _ rfl (by simp)
    · cases hs
  | go v =>
    simp only [step] at hs
    repeat' split at hs
    all_goals first
      | (cases hs; done)
      | (cases hs; exact mv v _ rfl (by simp))
  | ask v i =>
    simp only [step] at hs
    repeat' split at hs
    all_goals first
      | (cases hs; done)
      | (cases hs; exact mv v _ rfl (by simp))
      | (cases hs; simp [ih w hw])
  | end_ v =>
    simp only [step] at hs
    split at hs
    · rename_i r i hp; cases hs; exact mv v _ rfl (fun _ => .inr ⟨r, i, hp⟩)
    · cases hs

/-- All constructors can return. -/
theorem all_leave {tr : List Obs} (h : Reach step init s tr) (hg : OneGroup numa cpus tr) (hf : (places tr).length = cpus.length) :
    ∃ es s' o, exec step s es = some (s', o) ∧ ∀ w r, Obs.made w r ∈ tr → Obs.left w ∈ tr ++ o := by
  generalize hn : total s (places tr) = n
  induction n using Nat.strongRecOn generalizing s tr with
  | ind n ih =>
    obtain ⟨hi, -⟩ := reach_inv h hg
    have hone := hi.one hg rfl
    by_cases h0 : n = 0
    · refine ⟨[], s, [], rfl, ?_⟩
      intro w r hm
      -- a thread that has called has a place
      obtain ⟨i, hw⟩ := place_of_made hm
      have hr := zero_of_total (hn.trans h0) hw
      have hat := hi.pl w i hw
      simp only [List.append_nil]
      refine through h w ?_
      cases hp : s.pc w <;> rw [hp] at hr hat <;> simp_all [Pc.rank, Pc.at?]
    · obtain ⟨w, s1, o1, h1, h2, -, -, -⟩ := progress hi hone hf (by omega)
      have ho : o1 = [] ∨ o1 = [.left w] ∨ o1 = [.ub w] := by
        simp only [step] at h1
        repeat' split at h1
        all_goals first
          | (cases h1; done)
          | (cases h1; simp [State.bad])
      have hpl : places (tr ++ o1) = places tr := by
        rw [places_append]; rcases ho with rfl | rfl | rfl <;> rfl
      have hg1 : OneGroup numa cpus (tr ++ o1) := by
        refine ⟨?_, hg.rng, by rw [hpl]; exact hg.few, by rw [hpl]; exact hg.one⟩
        intro v r hm
        refine hg.req v r ?_
        rcases List.mem_append.1 hm with h | h
        · exact h
        · rcases ho with rfl | rfl | rfl <;> simp at h
      obtain ⟨es, s2, o2, h3, h4⟩ := ih (total s1 (places (tr ++ o1))) (by rw [hpl]; omega) (.tail _ h h1) hg1 (by rw [hpl]; exact hf) rfl
      refine ⟨.go w :: es, s2, o1 ++ o2, by simp [exec, h1, h3], ?_⟩
      intro v r hm
      have := h4 v r (by simp [hm])
      simpa using this

/-! ## Theorems -/

theorem PlainGroup.group {n : Nat} {tr : List Obs} (h : PlainGroup n tr) : OneGroup false (List.range n) tr :=
  ⟨fun w r hm => by simp [h.req w r hm], by simp, by simpa using h.few, by simp⟩

theorem NumaGroup.group {cpus : List Nat} {tr : List Obs} (h : NumaGroup cpus tr) : OneGroup true cpus tr :=
  ⟨fun w r hm => by simpa using h.req w r hm, by simp, by simp, fun _ => h.one⟩

/-- **C83 (what holds).** If at most `n` threads of a program use `work_stealing( n)`, with one and the same `n`:

* nothing undefined happens;
* no constructor returns before `n` threads have called it;
* whoever is asked for work is another thread of the group.

Missing for C83: a second group in the same program (`second_group_ub`), different counts (`different_counts_ub`). -/
theorem plain_partial {n : Nat} {tr : List Obs} (h : Reach step init s tr) (hg : PlainGroup n tr) :
    (∀ w, Obs.ub w ∉ tr) ∧ (∀ t1 t2 w, tr = t1 ++ .left w :: t2 → (places t1).length = n) ∧
    ∀ w v, Obs.asked w v ∈ tr → v ≠ w ∧ ∃ r, Obs.made v r ∈ tr :=
  ⟨(reach_inv h hg.group).2, by simpa using left_full h hg.group, asked_other h hg.group⟩

/-- **C83 (what holds).** When `n` threads have called the constructor, all calls can return, wherever the threads are. -/
theorem plain_leave_partial {n : Nat} {tr : List Obs} (h : Reach step init s tr) (hg : PlainGroup n tr) (hf : (places tr).length = n) :
    ∃ es s' o, exec step s es = some (s', o) ∧ ∀ w r, Obs.made w r ∈ tr → Obs.left w ∈ tr ++ o :=
  all_leave h hg.group (by simpa using hf)

/-- **C83 (what holds).** The same for `numa::work_stealing`: one thread for each CPU of the topology. -/
theorem numa_partial {cpus : List Nat} {tr : List Obs} (h : Reach step init s tr) (hg : NumaGroup cpus tr) :
    (∀ w, Obs.ub w ∉ tr) ∧ (∀ t1 t2 w, tr = t1 ++ .left w :: t2 → (places t1).length = cpus.length) ∧
    ∀ w v, Obs.asked w v ∈ tr → v ≠ w ∧ ∃ r, Obs.made v r ∈ tr :=
  ⟨(reach_inv h hg.group).2, left_full h hg.group, asked_other h hg.group⟩

theorem numa_leave_partial {cpus : List Nat} {tr : List Obs} (h : Reach step init s tr) (hg : NumaGroup cpus tr)
    (hf : (places tr).length = cpus.length) :
    ∃ es s' o, exec step s es = some (s', o) ∧ ∀ w r, Obs.made w r ∈ tr → Obs.left w ∈ tr ++ o :=
  all_leave h hg.group hf

/-- Two threads start. -/
def demo : List Event :=
  [.make 1 (.plain 2), .make 2 (.plain 2), .go 2, .go 1, .go 1, .go 2, .go 2, .go 2, .go 1, .go 1, .go 2, .ask 1 1, .ask 2 0]

theorem demo_reach : ∃ s, Reach step init s
    [.made 1 (.plain 2), .made 2 (.plain 2), .left 1, .left 2, .asked 1 2, .asked 2 1] :=
  ⟨_, reach_of_exec (es := demo) rfl⟩

example : PlainGroup 2 [.made 1 (.plain 2), .made 2 (.plain 2), .left 1, .left 2, .asked 1 2, .asked 2 1] :=
  ⟨by intro w r h; simp at h; rcases h with h | h <;> exact h.2, by decide⟩

/-- CPUs 0 and 3 of a machine whose CPUs 1 and 2 are offline. -/
def demoNuma : List Event :=
  [.make 1 (.numa 3 [0, 3]), .make 2 (.numa 0 [0, 3]), .go 1, .go 1, .go 1, .go 1, .go 2, .go 2, .go 2, .go 2, .go 1, .ask 1 0]

example : ∃ s, Reach step init s [.made 1 (.numa 3 [0, 3]), .made 2 (.numa 0 [0, 3]), .left 2, .left 1, .asked 1 2] ∧
    NumaGroup [0, 3] [.made 1 (.numa 3 [0, 3]), .made 2 (.numa 0 [0, 3]), .left 2, .left 1, .asked 1 2] :=
  ⟨_, reach_of_exec (es := demoNuma) rfl, by
    intro w r h; simp at h; rcases h with h | h <;> simp [h.2], by decide⟩

/-- **C83 is false of the code.** Two threads use `work_stealing( 2)` and end. A third thread, of a second group, writes outside
`schedulers_`: `counter_` is never reset. -/
theorem second_group_ub : ∃ s tr, Reach step init s tr ∧ (∀ w r, Obs.made w r ∈ tr → r = .plain 2) ∧
    tr = [.made 1 (.plain 2), .made 2 (.plain 2), .left 1, .left 2, .ended 1, .ended 2, .made 3 (.plain 2), .ub 3] :=
  ⟨_, _, reach_of_exec (es := demo.take 11 ++ [.end_ 1, .end_ 2, .make 3 (.plain 2), .go 3, .go 3, .go 3]) rfl, by
    intro w r h; simp at h; rcases h with h | h | h <;> exact h.2, by decide⟩

/-- **C83 is false of the code.** Two threads that give different counts: one looks for work outside `schedulers_`. -/
theorem different_counts_ub : ∃ s tr, Reach step init s tr ∧
    tr = [.made 1 (.plain 2), .made 2 (.plain 3), .left 2, .ub 2] :=
  ⟨_, _, reach_of_exec (es := [.make 1 (.plain 2), .make 2 (.plain 3), .go 1, .go 1, .go 1, .go 1, .go 2, .go 2, .go 2, .go 2, .ask 2 2]) rfl,
    by decide⟩

end Verif.StealStart
