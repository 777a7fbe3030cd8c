import Verif.UnbufferedSpec
import Mathlib.Tactic.ClearExcept

/-!
# Unbuffered channel: what the specification says about traces
-/

namespace Verif.Unbuf

variable {V : Type}

/-- The offers, in the order in which they were made. -/
def placedRefs (tr : List (Obs V)) : List Ref :=
  tr.filterMap fun | .placed f k _ => some ⟨f, k⟩ | _ => none

/-- The offers that were taken, in the order in which they were taken. -/
def tookRefs (tr : List (Obs V)) : List Ref :=
  tr.filterMap fun | .took _ _ f k => some ⟨f, k⟩ | _ => none

/-- The calls that took something. -/
def takers (tr : List (Obs V)) : List Ref :=
  tr.filterMap fun | .took g j _ _ => some ⟨g, j⟩ | _ => none

variable [DecidableEq V]

structure SI (sp : Spec V) (tr : List (Obs V)) : Prop where
  cl   : sp.closed = true ↔ ∃ f, Obs.closedAt f ∈ tr
  call : ∀ f c, sp.inCall f = some c → Obs.called f c.k c.op ∈ tr ∧ c.k = sp.ncalls f
  pl   : ∀ f k v, Obs.placed f k v ∈ tr → k ≤ sp.ncalls f ∧ (∃ dl, Obs.called f k (.push v dl) ∈ tr) ∧
           ∀ c, sp.inCall f = some c → c.k = k → c.ph = .offered ∨ c.ph = .delivered
  pn   : (placedRefs tr).Nodup
  sub  : (tookRefs tr ++ (sp.offer.map Prod.fst).toList).Sublist (placedRefs tr)
  off  : ∀ r v, sp.offer = some (r, v) → Obs.placed r.f r.k v ∈ tr
  tk   : ∀ g j f k, Obs.took g j f k ∈ tr → j ≤ sp.ncalls g ∧
           ∀ c, sp.inCall g = some c → c.k = j → ∃ v, c.ph = .got ⟨f, k⟩ v
  tn   : (takers tr).Nodup
  got  : ∀ g c r v, sp.inCall g = some c → c.ph = .got r v → Obs.took g c.k r.f r.k ∈ tr ∧ Obs.placed r.f r.k v ∈ tr
  del  : ∀ f c, sp.inCall f = some c → c.ph = .delivered → ∃ v g j op t, Obs.placed f c.k v ∈ tr ∧
           Obs.took g j f c.k ∈ tr ∧ Obs.ret g j op (.popped v) t ∈ tr
  offd : ∀ f c, sp.inCall f = some c → c.ph = .offered → ∃ v, Obs.placed f c.k v ∈ tr
  over : ∀ f k op r t, Obs.ret f k op r t ∈ tr → k ≤ sp.ncalls f ∧ ∀ c, sp.inCall f = some c → c.k ≠ k
  clc  : ∀ f, Obs.closedAt f ∈ tr → ∃ k, Obs.called f k .close ∈ tr
  num  : ∀ f k op, Obs.called f k op ∈ tr → k ≤ sp.ncalls f
  uniq : ∀ f k op op', Obs.called f k op ∈ tr → Obs.called f k op' ∈ tr → op = op'

theorem mem_placedRefs {tr : List (Obs V)} {r : Ref} : r ∈ placedRefs tr ↔ ∃ v, Obs.placed r.f r.k v ∈ tr := by
  simp only [placedRefs, List.mem_filterMap]
  constructor
  · rintro ⟨o, ho, h⟩
    cases o <;> simp only [Option.some.injEq, reduceCtorEq] at h
    subst h; exact ⟨_, ho⟩
  · rintro ⟨v, h⟩; exact ⟨_, h, rfl⟩

theorem mem_tookRefs {tr : List (Obs V)} {r : Ref} : r ∈ tookRefs tr ↔ ∃ g j, Obs.took g j r.f r.k ∈ tr := by
  simp only [tookRefs, List.mem_filterMap]
  constructor
  · rintro ⟨o, ho, h⟩
    cases o <;> simp only [Option.some.injEq, reduceCtorEq] at h
    subst h; exact ⟨_, _, ho⟩
  · rintro ⟨g, j, h⟩; exact ⟨_, h, rfl⟩

theorem mem_takers {tr : List (Obs V)} {r : Ref} : r ∈ takers tr ↔ ∃ f k, Obs.took r.f r.k f k ∈ tr := by
  simp only [takers, List.mem_filterMap]
  constructor
  · rintro ⟨o, ho, h⟩
    cases o <;> simp only [Option.some.injEq, reduceCtorEq] at h
    subst h; exact ⟨_, _, ho⟩
  · rintro ⟨g, j, h⟩; exact ⟨_, h, rfl⟩

/-- Observations other than hand-overs leave the lists alone. -/
theorem refs_snoc (tr : List (Obs V)) (o : Obs V) :
    placedRefs (tr ++ [o]) = placedRefs tr ++ placedRefs [o] ∧ tookRefs (tr ++ [o]) = tookRefs tr ++ tookRefs [o] ∧
    takers (tr ++ [o]) = takers tr ++ takers [o] := by
  simp [placedRefs, tookRefs, takers]

theorem si_init : SI (Spec.init : Spec V) [] := by
  constructor <;> simp [Spec.init, placedRefs, tookRefs, takers]

theorem si_next {sp sp' : Spec V} {tr : List (Obs V)} {o : Obs V} (h : SI sp tr) (hn : sp.next o = some sp') :
    SI sp' (tr ++ [o]) := by
  obtain ⟨e1, e2, e3⟩ := refs_snoc tr o
  obtain ⟨cl, call, pl, pn, sub, off, tk, tn, got, del, offd, over, clc, num, uniq⟩ := h
  cases o with
  | called f k op =>
    simp only [Spec.next] at hn
    split at hn <;> simp only [Option.some.injEq, reduceCtorEq] at hn
    rename_i hc
    obtain ⟨hc, rfl⟩ := hc
    subst hn
    constructor
    case pn => rw [e1]; simpa [placedRefs] using pn
    case sub => rw [e1, e2]; simpa [placedRefs, tookRefs] using sub
    case tn => rw [e3]; simpa [takers] using tn
    all_goals
      simp only [List.mem_append, List.mem_singleton, reduceCtorEq, or_false, upd_apply]
    case cl => exact cl
    case call => clear * - call hc; grind
    case pl => clear * - pl call hc; grind
    case off => exact off
    case tk => clear * - tk call hc; grind
    case got => clear * - got hc; grind
    case del => clear * - del hc; grind
    case offd => clear * - offd hc; grind
    case over => clear * - over call hc; grind
    case clc => clear * - clc call hc; grind
    case num => clear * - num hc; grind
    case uniq => clear * - uniq num hc; grind
  | placed f k v =>
    simp only [Spec.next] at hn
    split at hn
    case h_2 => cases hn
    rename_i k' v' dl hc
    split at hn <;> simp only [Option.some.injEq, reduceCtorEq] at hn
    rename_i hk
    obtain ⟨rfl, rfl, ho⟩ := hk
    subst hn
    have hfresh : ⟨f, k'⟩ ∉ placedRefs tr := by
      intro hm
      obtain ⟨w, hw⟩ := mem_placedRefs.1 hm
      have := (pl _ _ _ hw).2.2 _ hc rfl
      simp at this
    have hcl := call _ _ hc
    constructor
    case pn =>
      rw [e1]; simp only [placedRefs, List.filterMap_cons, List.filterMap_nil]
      exact List.nodup_append.2 ⟨pn, by simp, by intro a ha b hb h; simp only [List.mem_singleton] at hb; subst hb h; exact hfresh ha⟩
    case sub =>
      rw [e1, e2]
      simp only [ho, Option.map_none, Option.toList_none, List.append_nil] at sub
      simpa [placedRefs, tookRefs] using sub
    case tn => rw [e3]; simpa [takers] using tn
    all_goals
      simp only [List.mem_append, List.mem_singleton, reduceCtorEq, or_false, upd_apply]
    case cl => exact cl
    case call => clear * - call hc hcl; grind
    case pl => clear * - pl call hc hcl; grind
    case off => clear * - off hc hcl; grind
    case tk => clear * - tk call hc hcl; grind
    case got => clear * - got hc hcl; grind
    case del => clear * - del hc hcl; grind
    case offd =>
      clear * - offd hc hcl
      intro g c hg hph
      split at hg
      · simp only [Option.some.injEq] at hg; subst hg; subst_vars; exact ⟨_, Or.inr rfl⟩
      · obtain ⟨w, hw⟩ := offd g c hg hph; exact ⟨w, Or.inl hw⟩
    case over => clear * - over call hc hcl; grind
    case clc => clear * - clc call hc hcl; grind
    case num => clear * - num hc hcl; grind
    case uniq => clear * - uniq num hc hcl; grind
  | took g j f k =>
    have main : ∀ r v op, sp.offer = some (r, v) → sp.inCall g = some ⟨j, op, .fresh⟩ → r = ⟨f, k⟩ →
        sp' = { sp with offer := none, inCall := upd sp.inCall g (some ⟨j, op, .got r v⟩) } →
        SI sp' (tr ++ [.took g j f k]) := by
      rintro r v op ho hc rfl rfl
      have hfresh : ⟨g, j⟩ ∉ takers tr := by
        intro hm
        obtain ⟨a, b, hw⟩ := mem_takers.1 hm
        have := (tk _ _ _ _ hw).2 _ hc rfl
        simp at this
      have hcl := call _ _ hc
      have hof := off _ _ ho
      constructor
      case pn => rw [e1]; simpa [placedRefs] using pn
      case sub => rw [e1, e2]; simpa [placedRefs, tookRefs, ho] using sub
      case tn =>
        rw [e3]; simp only [takers, List.filterMap_cons, List.filterMap_nil]
        exact List.nodup_append.2 ⟨tn, by simp, by intro a ha b hb h; simp only [List.mem_singleton] at hb; subst hb h; exact hfresh ha⟩
      all_goals
        simp only [List.mem_append, List.mem_singleton, reduceCtorEq, or_false, upd_apply]
      case cl => exact cl
      case call => clear * - call hc hcl hof ho; grind
      case pl => clear * - pl call hc hcl hof ho; grind
      case off => clear * - off hc hcl hof ho; grind
      case tk => clear * - tk call hc hcl hof ho; grind
      case got => clear * - got hc hcl hof ho; grind
      case del => clear * - del hc hcl hof ho; grind
      case offd => clear * - offd hc hcl hof ho; grind
      case over => clear * - over call hc hcl hof ho; grind
      case clc => clear * - clc call hc hcl hof ho; grind
      case num => clear * - num hc hcl hof ho; grind
      case uniq => clear * - uniq num hc hcl hof ho; grind
    simp only [Spec.next] at hn
    split at hn
    case h_2 => cases hn
    rename_i r v ho
    split at hn
    · rename_i j' dl hc
      split at hn <;> simp only [Option.some.injEq, reduceCtorEq] at hn
      rename_i hk
      obtain ⟨rfl, rfl⟩ := hk
      exact main _ v _ ho hc rfl hn.symm
    · rename_i j' hc
      split at hn <;> simp only [Option.some.injEq, reduceCtorEq] at hn
      rename_i hk
      obtain ⟨rfl, rfl⟩ := hk
      exact main _ v _ ho hc rfl hn.symm
    · cases hn
  | closedAt f =>
    simp only [Spec.next] at hn
    split at hn
    case h_2 => cases hn
    rename_i k ph hc
    split at hn <;> simp only [Option.some.injEq, reduceCtorEq] at hn
    subst hn
    constructor
    case pn => rw [e1]; simpa [placedRefs] using pn
    case sub => rw [e1, e2]; simpa [placedRefs, tookRefs, Spec.finish] using sub
    case tn => rw [e3]; simpa [takers] using tn
    all_goals
      simp only [List.mem_append, List.mem_singleton, reduceCtorEq, or_false, upd_apply, Spec.finish]
    case cl => simp
    case call => clear * - call hc; grind
    case pl => clear * - pl call hc; grind
    case off => clear * - off hc; grind
    case tk => clear * - tk call hc; grind
    case got => clear * - got hc; grind
    case del => clear * - del hc; grind
    case offd => clear * - offd hc; grind
    case over => clear * - over call hc; grind
    case clc => clear * - clc call hc; grind
    case num => clear * - num hc; grind
    case uniq => clear * - uniq num hc; grind
  | ret f k op r t =>
    -- the call ends, possibly withdrawing an offer
    have fin : ∀ c sp1, sp.inCall f = some c → c.k = k → c.op = op → (∀ v, r ≠ .popped v) → sp' = Spec.finish sp1 f →
        sp1.inCall = sp.inCall → sp1.closed = sp.closed → sp1.ncalls = sp.ncalls →
        (sp1.offer = sp.offer ∨ sp1.offer = none) → SI sp' (tr ++ [.ret f k op r t]) := by
      rintro ⟨k', op', ph⟩ sp1 hc rfl rfl hr rfl h1 h2 h3 h4
      have hcl := call _ _ hc
      constructor
      case pn => rw [e1]; simpa [placedRefs] using pn
      case sub =>
        rw [e1, e2]
        rcases h4 with h4 | h4
        · simpa [placedRefs, tookRefs, Spec.finish, h4] using sub
        · simpa [placedRefs, tookRefs, Spec.finish, h4] using (List.sublist_append_left _ _).trans sub
      case tn => rw [e3]; simpa [takers] using tn
      all_goals
        simp only [List.mem_append, List.mem_singleton, reduceCtorEq, or_false, upd_apply, Spec.finish, h1, h2, h3]
      case cl => exact cl
      case call => clear * - call hc hcl h4; grind
      case pl => clear * - pl call hc hcl h4; grind
      case off => clear * - off hc hcl h4; grind
      case tk => clear * - tk call hc hcl h4; grind
      case got => clear * - got hc hcl h4; grind
      case del => clear * - del hc hcl h4; grind
      case offd => clear * - offd hc hcl h4; grind
      case over => clear * - over call hc hcl h4; grind
      case clc => clear * - clc call hc hcl h4; grind
      case num => clear * - num hc hcl h4; grind
      case uniq => clear * - uniq num hc hcl h4; grind
    simp only [Spec.next] at hn
    split at hn
    case h_2 => cases hn
    rename_i c hc
    split at hn
    case isFalse => cases hn
    rename_i hk
    obtain ⟨hk1, hk2⟩ := hk
    split at hn
    · rename_i v
      clear fin
      obtain ⟨k', op', ph⟩ := c
      simp only at hk1 hk2
      subst hk1 hk2
      have main : ∀ r, ph = .got r v → sp' = (sp.finish f).mark r → SI sp' (tr ++ [.ret f k' op' (.popped v) t]) := by
        rintro r rfl rfl
        have hcl := call _ _ hc
        have hg := got _ _ _ _ hc rfl
        simp only [Spec.mark, Spec.finish]
        by_cases hrf : r.f = f
        · -- it took its own call: impossible, but harmless
          simp only [hrf, upd_same]
          constructor
          case pn => rw [e1]; simpa [placedRefs] using pn
          case sub => rw [e1, e2]; simpa [placedRefs, tookRefs] using sub
          case tn => rw [e3]; simpa [takers] using tn
          all_goals
            simp only [List.mem_append, List.mem_singleton, reduceCtorEq, or_false, upd_apply]
          case cl => exact cl
          case call => clear * - call hc hcl hg hrf; grind
          case pl => clear * - pl call hc hcl hg hrf; grind
          case off => clear * - off hc hcl hg hrf; grind
          case tk => clear * - tk call hc hcl hg hrf; grind
          case got => clear * - got hc hcl hg hrf; grind
          case del => clear * - del hc hcl hg hrf; grind
          case offd => clear * - offd hc hcl hg hrf; grind
          case over => clear * - over call hc hcl hg hrf; grind
          case clc => clear * - clc call hc hcl hg hrf; grind
          case num => clear * - num hc hcl hg hrf; grind
          case uniq => clear * - uniq num hc hcl hg hrf; grind
        · have upd0 : SI { sp with inCall := upd sp.inCall f none } (tr ++ [.ret f k' op' (.popped v) t]) := by
            constructor
            case pn => rw [e1]; simpa [placedRefs] using pn
            case sub => rw [e1, e2]; simpa [placedRefs, tookRefs] using sub
            case tn => rw [e3]; simpa [takers] using tn
            all_goals
              simp only [List.mem_append, List.mem_singleton, reduceCtorEq, or_false, upd_apply]
            case cl => exact cl
            case call => clear * - call hc hcl hg hrf; grind
            case pl => clear * - pl call hc hcl hg hrf; grind
            case off => clear * - off hc hcl hg hrf; grind
            case tk => clear * - tk call hc hcl hg hrf; grind
            case got => clear * - got hc hcl hg hrf; grind
            case del => clear * - del hc hcl hg hrf; grind
            case offd => clear * - offd hc hcl hg hrf; grind
            case over => clear * - over call hc hcl hg hrf; grind
            case clc => clear * - clc call hc hcl hg hrf; grind
            case num => clear * - num hc hcl hg hrf; grind
            case uniq => clear * - uniq num hc hcl hg hrf; grind
          simp only [upd_apply, if_neg hrf]
          split
          case h_2 => exact upd0
          rename_i c' hc'
          split
          case isFalse => exact upd0
          rename_i hkk
          have hpl := (pl _ _ _ hg.2).2.2 _ hc' hkk
          obtain ⟨cl, call, pl, pn, sub, off, tk, tn, got, del, offd, over, clc, num, uniq⟩ := upd0
          constructor
          case pn => exact pn
          case sub => exact sub
          case tn => exact tn
          all_goals
            simp only [List.mem_append, List.mem_singleton, reduceCtorEq, or_false, upd_apply] at *
          case cl => exact cl
          case call => clear * - call hc' hkk hpl hg hrf; grind
          case pl => clear * - pl call hc' hkk hpl hg hrf; grind
          case off => clear * - off hc' hkk hpl hg hrf; grind
          case tk => clear * - tk call hc' hkk hpl hg hrf; grind
          case got => clear * - got hc' hkk hpl hg hrf; grind
          case del => clear * - del hc' hkk hpl hg hrf; grind
          case offd => clear * - offd hc' hkk hpl hg hrf; grind
          case over => clear * - over call hc' hkk hpl hg hrf; grind
          case clc => clear * - clc call hc' hkk hpl hg hrf; grind
          case num => clear * - num hc' hkk hpl hg hrf; grind
          case uniq => clear * - uniq num hc' hkk hpl hg hrf; grind
      simp only [Spec.retPopped] at hn
      split at hn
      · split at hn <;> simp only [Option.some.injEq, reduceCtorEq] at hn
        subst_vars; exact main _ rfl rfl
      · split at hn <;> simp only [Option.some.injEq, reduceCtorEq] at hn
        subst_vars; exact main _ rfl rfl
      · cases hn
    · rename_i hnp
      have hr : ∀ v, r ≠ .popped v := fun v h => hnp v h
      simp only [Spec.ret] at hn
      split at hn
      all_goals (repeat' split at hn)
      all_goals simp only [Option.some.injEq, reduceCtorEq] at hn
      all_goals first
        | exact fin c sp hc hk1 hk2 hr hn.symm rfl rfl rfl (Or.inl rfl)
        | exact fin c _ hc hk1 hk2 hr hn.symm rfl rfl rfl (by first | exact Or.inr rfl | (dsimp only; split <;> simp))
  | ub f =>
    simp only [Spec.next, Option.some.injEq] at hn
    subst hn
    constructor
    case pn => rw [e1]; simpa [placedRefs] using pn
    case sub => rw [e1, e2]; simpa [placedRefs, tookRefs, Spec.finish] using sub
    case tn => rw [e3]; simpa [takers] using tn
    all_goals
      simp only [List.mem_append, List.mem_singleton, reduceCtorEq, or_false, upd_apply, Spec.finish]
    case cl => exact cl
    case call => clear * - call ; grind
    case pl => clear * - pl call ; grind
    case off => clear * - off ; grind
    case tk => clear * - tk call ; grind
    case got => clear * - got ; grind
    case del => clear * - del ; grind
    case offd => clear * - offd ; grind
    case over => clear * - over call ; grind
    case clc => clear * - clc call ; grind
    case num => clear * - num ; grind
    case uniq => clear * - uniq num ; grind

theorem si_run {tr tr' : List (Obs V)} : ∀ {sp sp' : Spec V}, SI sp tr → sp.run tr' = some sp' → SI sp' (tr ++ tr') := by
  induction tr' generalizing tr with
  | nil => intro sp sp' h hr; simp only [Spec.run, Option.some.injEq] at hr; subst hr; simpa using h
  | cons o os ih =>
    intro sp sp' h hr
    simp only [Spec.run] at hr
    split at hr
    · cases hr
    · rename_i sp1 h1
      have := ih (si_next h h1) hr
      simpa using this

/-- The state of the specification before and after an observation of an accepted trace. -/
theorem Spec.split {tr1 tr2 : List (Obs V)} {o : Obs V} {sp : Spec V} (h : Spec.init.run (tr1 ++ o :: tr2) = some sp) :
    ∃ sp1 sp2, Spec.init.run tr1 = some sp1 ∧ SI sp1 tr1 ∧ sp1.next o = some sp2 ∧ SI sp2 (tr1 ++ [o]) ∧
      sp2.run tr2 = some sp := by
  have aux : ∀ (tr1 : List (Obs V)) (sp0 : Spec V), sp0.run (tr1 ++ o :: tr2) = some sp →
      ∃ sp1 sp2, sp0.run tr1 = some sp1 ∧ sp1.next o = some sp2 ∧ sp2.run tr2 = some sp := by
    intro tr1
    induction tr1 with
    | nil =>
      intro sp0 h
      simp only [List.nil_append, Spec.run] at h
      split at h
      · cases h
      · rename_i sp1 h1; exact ⟨sp0, sp1, rfl, h1, h⟩
    | cons a as ih =>
      intro sp0 h
      simp only [List.cons_append, Spec.run] at h ⊢
      split at h
      · cases h
      · rename_i sp1 h1
        exact ih sp1 h
  obtain ⟨sp1, sp2, h1, h2, h3⟩ := aux tr1 _ h
  have hsi : SI sp1 tr1 := by simpa using si_run si_init h1
  exact ⟨sp1, sp2, h1, hsi, h2, si_next hsi h2, h3⟩

end Verif.Unbuf
