import Verif.WeakFiberInv

/-!
# Fibers under weak memory: every fiber stays at one place
-/

namespace Verif.WeakFiber

open Weak

/-- What is known stays true if nothing about the fibers that are with the thread changes. -/
theorem Way.frame {sched sched' : Fib → Option Nat} {term term' : Fib → Bool} {cont cont' : Fib → Option Fib} {w : Nat} {p : Ph}
    (h : Way sched term cont w p) (h1 : ∀ f ∈ p.carry, sched' f = sched f) (h2 : ∀ f ∈ p.carry, cont' f = cont f)
    (h3 : ∀ f, term f = true → term' f = true) : Way sched' term' cont' w p := by
  unfold Way at h ⊢
  split at h <;> simp_all [Ph.carry, InQ]

theorem Ret.ph_carry (k : Ret) : k.ph.carry = k.carry := by cases k <;> rfl
theorem Ret.ph_here (k : Ret) : k.ph.here = k.carry := by cases k <;> rfl
theorem Ret.ph_ends (k : Ret) : k.ph.ends = k.ends := by cases k <;> rfl
theorem Ret.ph_locks (k : Ret) (w : Nat) : k.ph.locks w = k.locks := by cases k <;> rfl
theorem Ret.ph_way {sched : Fib → Option Nat} {term : Fib → Bool} {cont : Fib → Option Fib} {w : Nat} (k : Ret) : Way sched term cont w k.ph := by
  cases k <;> trivial

attribute [grind =] Ret.ph_carry Ret.ph_here Ret.ph_ends

set_option hygiene false in
/-- Proves that the new state is in order; `hp`: the place of thread `w` before. -/
macro "str" : tactic => `(tactic| (
  have hc := h.car w
  have hnd := h.nd w
  have hh := h.here w
  have hw := h.way w
  have he := h.ends w
  rw [hp] at hc hnd hh hw he
  simp only [Ph.carry, Ph.here, Ph.ends, Way, Option.toList, After.prev, List.nil_append, List.cons_append] at hc hnd hh hw he
  constructor
  case car =>
    intro u f hf
    have := h.car u f
    try simp only [upd_apply] at hf ⊢
    all_goals grind [Ph.carry, After.carry, Ret.carry]
  case nd =>
    intro u
    have := h.nd u
    try simp only [upd_apply]
    all_goals grind [Ph.carry, After.carry, Ret.carry]
  case here =>
    intro u f hf
    have := h.here u f
    try simp only [upd_apply] at hf ⊢
    all_goals grind [Ph.here, After.prev, Ret.carry]
  case way =>
    intro u
    by_cases hu : u = w
    · subst hu
      simp only [upd_same]
      first
        | trivial
        | exact Ret.ph_way _
        | (simp only [Way, InQ, upd_apply] at *; grind)
    · simp only [upd_other _ _ hu]
      refine (h.way u).frame ?_ ?_ ?_
      · intro f hf
        have := h.car u f hf
        try simp only [upd_apply]
        all_goals grind
      · intro f hf
        have := h.car u f hf
        try simp only [upd_apply]
        all_goals grind
      · intro f hf
        try simp only [upd_apply]
        all_goals grind
  case own =>
    intro u f
    have := h.own u f
    try simp only [upd_apply]
    all_goals grind
  case ownN =>
    intro u
    have := h.ownN u
    have := fun f => h.own u f
    try simp only [upd_apply]
    all_goals grind
  case sq =>
    intro u f
    have := h.sq u f
    try simp only [upd_apply, InQ]  at *
    all_goals grind
  case sqN =>
    intro u
    have := h.sqN u
    have := fun f => h.sq u f
    try simp only [upd_apply]
    all_goals grind
  case rq =>
    intro u f
    have := h.rq u f
    try simp only [upd_apply]
    all_goals grind
  case rqN =>
    intro u
    have := h.rqN u
    have := fun f => h.rq u f
    try simp only [upd_apply]
    all_goals grind
  case wq =>
    intro u f
    have := h.wq u f
    try simp only [upd_apply]
    all_goals grind
  case wqN =>
    intro u
    have := h.wqN u
    have := fun f => h.wq u f
    try simp only [upd_apply]
    all_goals grind
  case pin =>
    intro f hf
    have := h.pin f hf
    try simp only [upd_apply]
    all_goals grind
  case ends =>
    intro u f
    have := h.ends u f
    try simp only [upd_apply]
    all_goals grind [Ph.ends, Ret.ends]
  case term =>
    intro f
    have := h.term f
    have := h.term
    try simp only [upd_apply]
    all_goals grind [Ph.ends, Ret.ends]
  case cont =>
    intro f g
    have := h.cont f g
    have := h.cont f
    try simp only [upd_apply]
    all_goals grind [Place.waits]
  case new =>
    intro f hf hb
    have := h.new f hf
    try simp only [upd_apply] at *
    all_goals grind))

variable {s : State} {pl : Fib → Place} {w : Nat} {m : Mem} {a : After} {k : Ret} {f g h' n : Fib} {e j v : Nat} {l : List Fib}

theorem str_jSpin (h : Str s pl) (hp : s.ph w = .jSpin f g) :
    Str { s with mem := m, ph := upd s.ph w (.jLook f g) } (pl) := by
  str

theorem str_jDone0 (h : Str s pl) (hp : s.ph w = .jLook f g) (ht : s.term g = true) :
    Str { s with mem := m, ph := upd s.ph w (.jDone f g) } (pl) := by
  str

theorem str_jArm0 (h : Str s pl) (hp : s.ph w = .jLook f g) :
    Str { s with mem := m, ph := upd s.ph w (.jArm f g) } (pl) := by
  str

theorem str_jDone (h : Str s pl) (hp : s.ph w = .jDone f g) :
    Str { s with mem := m, ph := upd s.ph w (.run f), cont := upd s.cont f (some g) } (pl) := by
  str

theorem str_jArm (h : Str s pl) (hp : s.ph w = .jArm f g) :
    Str { s with mem := m, ph := upd s.ph w (.jWaker f g e) } (pl) := by
  str

theorem str_jWaker (h : Str s pl) (hp : s.ph w = .jWaker f g e) :
    Str { s with mem := m, ph := upd s.ph w (.jPush f g e) } (pl) := by
  str

theorem str_jPush (h : Str s pl) (hp : s.ph w = .jPush f g e) :
    Str { s with mem := m, ph := upd s.ph w (.pick (.susp f g)), wq := upd s.wq g (s.wq g ++ [(f, e)]), cont := upd s.cont f (some g) } (upd pl f (.wq g)) := by
  str

theorem str_qRelN (h : Str s pl) (hp : s.ph w = .qRel a j none) :
    Str { s with mem := m, ph := upd s.ph w (.pick a) } (pl) := by
  str

theorem str_qRelS (h : Str s pl) (hp : s.ph w = .qRel a j (some n)) :
    Str { s with mem := m, ph := upd s.ph w (.att a n) } (pl) := by
  str

theorem str_attP (h : Str s pl) (hp : s.ph w = .att a n) (hn : pinned n = true) :
    Str { s with mem := m, ph := upd s.ph w (.sw a n) } (pl) := by
  have h0 := h.pin n hn
  str

theorem str_att (h : Str s pl) (hp : s.ph w = .att a n) (hn : pinned n = false) :
    Str { s with mem := m, ph := upd s.ph w (.sw a n), sched := upd s.sched n (some w) } (pl) := by
  str

theorem str_swS (h : Str s pl) (hp : s.ph w = .sw (.susp f g) n) :
    Str { s with mem := m, ph := upd s.ph w (.unl f g n) } (pl) := by
  str

theorem str_swY (h : Str s pl) (hp : s.ph w = .sw (.yield f) n) :
    Str { s with mem := m, ph := upd s.ph w (.sch f (.run n)) } (pl) := by
  str

theorem str_swG (h : Str s pl) (hp : s.ph w = .sw (.gone f) n) :
    Str { s with mem := m, ph := upd s.ph w (.run n) } (pl) := by
  str

theorem str_unl (h : Str s pl) (hp : s.ph w = .unl f g n) :
    Str { s with mem := m, ph := upd s.ph w (.own f n) } (pl) := by
  str

theorem str_ownF (h : Str s pl) (hp : s.ph w = .own f n) :
    Str { s with mem := m, ph := upd s.ph w (.run n) } (pl) := by
  str

theorem str_schO (h : Str s pl) (hp : s.ph w = .sch h' k) :
    Str { s with mem := m, ph := upd s.ph w (k.ph), own := upd s.own w (s.own w ++ [h']) } (upd pl h' (.own w)) := by
  str

theorem str_schP (h : Str s pl) (hp : s.ph w = .sch h' k) (hn : pinned h' = true) (hj : target (s.alg w) w h' = some j) :
    Str { s with mem := m, ph := upd s.ph w (.qSpin h' k j) } (pl) := by
  have h0 := h.pin h' hn
  have h1 : j = w + 1 := by
    unfold target at hj
    split at hj
    · cases hj
    · rw [hn] at hj; cases hj
    · cases hj; rfl
  str

theorem str_sch (h : Str s pl) (hp : s.ph w = .sch h' k) (hn : pinned h' = false) :
    Str { s with mem := m, ph := upd s.ph w (.qSpin h' k j), sched := upd s.sched h' none } (pl) := by
  str

theorem str_qSpin (h : Str s pl) (hp : s.ph w = .qSpin h' k j) :
    Str { s with mem := m, ph := upd s.ph w (.qPush h' k j) } (pl) := by
  str

theorem str_qPush (h : Str s pl) (hp : s.ph w = .qPush h' k j) :
    Str { s with mem := m, ph := upd s.ph w (.qFree k j), sq := upd s.sq j (s.sq j ++ [h']) } (upd pl h' (.sq j)) := by
  str

theorem str_qFree (h : Str s pl) (hp : s.ph w = .qFree k j) :
    Str { s with mem := m, ph := upd s.ph w (k.ph) } (pl) := by
  str

theorem str_tSpin (h : Str s pl) (hp : s.ph w = .tSpin f) :
    Str { s with mem := m, ph := upd s.ph w (.tMark f) } (pl) := by
  str

theorem str_tMark (h : Str s pl) (hp : s.ph w = .tMark f) :
    Str { s with mem := m, ph := upd s.ph w (.tNote f), term := upd s.term f true } (pl) := by
  str

theorem str_tNoteN (h : Str s pl) (hp : s.ph w = .tNote f) :
    Str { s with mem := m, ph := upd s.ph w (.tRel f) } (pl) := by
  str

theorem str_tNote (h : Str s pl) (hp : s.ph w = .tNote f) {q : List (Fib × Nat)} (hq : s.wq f = (h', e) :: q) :
    Str { s with mem := m, ph := upd s.ph w (.tCas f h' e), wq := upd s.wq f q } (upd pl h' (.on w)) := by
  have h0 := h.wq f (h', e) (by rw [hq]; simp)
  have h1 := h.wqN f
  rw [hq] at h1
  simp only [List.map_cons] at h1 h0
  str

theorem str_tCasT (h : Str s pl) (hp : s.ph w = .tCas f h' e) :
    Str { s with mem := m, ph := upd s.ph w (.tWoke f h') } (pl) := by
  str

theorem str_tCasF (h : Str s pl) (hp : s.ph w = .tCas f h' e) :
    Str { s with mem := m, ph := upd s.ph w (.tNote f) } (upd pl h' .nil) := by
  str

theorem str_tWokeL (h : Str s pl) (hp : s.ph w = .tWoke f h') (hv : s.sched h' = some w) :
    Str { s with mem := m, ph := upd s.ph w (.sch h' (.note f)) } (pl) := by
  str

theorem str_tWokeR (h : Str s pl) (hp : s.ph w = .tWoke f h') (hv : s.sched h' = some v) :
    Str { s with mem := m, ph := upd s.ph w (.rSpin f h' v) } (pl) := by
  str

theorem str_rSpin (h : Str s pl) (hp : s.ph w = .rSpin f h' v) :
    Str { s with mem := m, ph := upd s.ph w (.rPush f h' v) } (pl) := by
  str

theorem str_rPush (h : Str s pl) (hp : s.ph w = .rPush f h' v) :
    Str { s with mem := m, ph := upd s.ph w (.rRel f v), rq := upd s.rq v (s.rq v ++ [h']) } (upd pl h' (.rq v)) := by
  str

theorem str_rRel (h : Str s pl) (hp : s.ph w = .rRel f v) :
    Str { s with mem := m, ph := upd s.ph w (.tNote f) } (pl) := by
  str

theorem str_tRel (h : Str s pl) (hp : s.ph w = .tRel f) :
    Str { s with mem := m, ph := upd s.ph w (.pick (.gone f)) } (upd pl f .nil) := by
  str

theorem str_fSpin (h : Str s pl) (hp : s.ph w = .fSpin f) :
    Str { s with mem := m, ph := upd s.ph w (.fSwap f) } (pl) := by
  str

theorem str_fSwap (h : Str s pl) (hp : s.ph w = .fSwap f) :
    Str { s with mem := m, ph := upd s.ph w (.fRel f (s.rq w)), rq := upd s.rq w [] } (fun x => if x ∈ s.rq w then .on w else pl x) := by
  have h0 := h.rq w
  have h1 := h.rqN w
  str

theorem str_fRel (h : Str s pl) (hp : s.ph w = .fRel f l) :
    Str { s with mem := m, ph := upd s.ph w (.fLoop f l) } (pl) := by
  str

theorem str_fLoopN (h : Str s pl) (hp : s.ph w = .fLoop f []) :
    Str { s with mem := m, ph := upd s.ph w (.run f) } (pl) := by
  str

theorem str_fLoop (h : Str s pl) (hp : s.ph w = .fLoop f (h' :: l)) :
    Str { s with mem := m, ph := upd s.ph w (.sch h' (.fetch f l)) } (pl) := by
  str

theorem str_spawnN (h : Str s pl) (hp : s.ph w = .run f) (hg : pinned g = false) (hb : s.born g = false) :
    Str { s with mem := m, ph := upd s.ph w (.sch f (.run g)), sched := upd s.sched g (some w), born := upd s.born g true } (upd pl g (.on w)) := by
  have h0 := h.new g hg hb
  str

theorem str_spawn (h : Str s pl) (hp : s.ph w = .run f) (hg : pinned g = false) (hb : s.born g = false) :
    Str { s with mem := m, ph := upd s.ph w (.sch g (.run f)), sched := upd s.sched g (some w), born := upd s.born g true } (upd pl g (.on w)) := by
  have h0 := h.new g hg hb
  str

theorem str_join (h : Str s pl) (hp : s.ph w = .run f) :
    Str { s with mem := m, ph := upd s.ph w (.jSpin f g) } (pl) := by
  str

theorem str_yield (h : Str s pl) (hp : s.ph w = .run f) :
    Str { s with mem := m, ph := upd s.ph w (.pick (.yield f)) } (pl) := by
  str

theorem str_finish (h : Str s pl) (hp : s.ph w = .run f) :
    Str { s with mem := m, ph := upd s.ph w (.tSpin f) } (pl) := by
  str

theorem str_fetch (h : Str s pl) (hp : s.ph w = .run f) :
    Str { s with mem := m, ph := upd s.ph w (.fSpin f) } (pl) := by
  str

theorem str_own (h : Str s pl) (hp : s.ph w = .pick a) (hn : n ∈ s.own w) :
    Str { s with mem := m, ph := upd s.ph w (.sw a n), own := upd s.own w ((s.own w).erase n) } (upd pl n (.on w)) := by
  have h0 := h.own w n hn
  have h1 : n ∉ (s.own w).erase n := fun h2 => ((h.ownN w).mem_erase_iff.1 h2).1 rfl
  str

theorem str_look (h : Str s pl) (hp : s.ph w = .pick a) :
    Str { s with mem := m, ph := upd s.ph w (.qLook a j) } (pl) := by
  str

theorem str_took (h : Str s pl) (hp : s.ph w = .qLook a j) (hn : n ∈ s.sq j) (hj : pinned n = true → j = w + 1) :
    Str { s with mem := m, ph := upd s.ph w (.qRel a j (some n)), sq := upd s.sq j ((s.sq j).erase n) } (upd pl n (.on w)) := by
  have h0 := h.sq j n hn
  have h1 : n ∉ (s.sq j).erase n := fun h2 => ((h.sqN j).mem_erase_iff.1 h2).1 rfl
  str

theorem str_left (h : Str s pl) (hp : s.ph w = .qLook a j) :
    Str { s with mem := m, ph := upd s.ph w (.qRel a j none) } (pl) := by
  str

theorem str_nothing (h : Str s pl) (hp : s.ph w = .pick (.yield f)) :
    Str { s with mem := m, ph := upd s.ph w (.run f) } (pl) := by
  str

end Verif.WeakFiber
