import Verif.NumaSys
import Verif.Props.Numa

/-!
# The NUMA topology on every system (C106), and pinning threads (C107)
-/

namespace Verif.Props.NumaSys

open Verif.NumaSys Verif.Numa

/-- A topology describes a machine (`belongs n c`: CPU `c` belongs to node `n`): the nodes have different ids, each lists exactly its
CPUs, each of them once and in increasing order, no node is listed that has none, and no CPU is listed at two nodes. -/
structure Describes (belongs : Nat → Nat → Prop) (topo : List NumaSys.Node) : Prop where
  ids : (topo.map NumaSys.Node.id).Nodup
  cpus : ∀ n c, (∃ m ∈ topo, m.id = n ∧ c ∈ m.cpus) ↔ belongs n c
  sorted : ∀ m ∈ topo, m.cpus.Pairwise (· < ·)
  nonempty : ∀ m ∈ topo, m.cpus ≠ []
  once : ∀ m ∈ topo, ∀ m' ∈ topo, ∀ c, c ∈ m.cpus → c ∈ m'.cpus → m = m'

/-- `distance` as documented (`doc/numa.qbk:113-116`, `doc/numa.qbk:235-240`): the index is the id of a node; a node has distance 10 to
itself and a greater one to every other node. -/
def Distances (topo : List NumaSys.Node) : Prop :=
  ∀ n ∈ topo, n.dist[n.id]? = some 10 ∧ ∀ m ∈ topo, m.id ≠ n.id → ∃ d, n.dist[m.id]? = some d ∧ 10 < d

/-! ## Lemmas -/

theorem collect_spec (n : Nat) (p : Nat → Bool) (f : Nat → Nat) :
    (collect n p f).Pairwise (· < ·) ∧ ∀ c, c ∈ collect n p f ↔ ∃ i, i < n ∧ p i = true ∧ f i = c := by
  have key : ∀ (l s : List Nat), s.Pairwise (· < ·) →
      (l.foldl (fun s i => if p i then Numa.insert (f i) s else s) s).Pairwise (· < ·) ∧
      ∀ c, c ∈ l.foldl (fun s i => if p i then Numa.insert (f i) s else s) s ↔ (∃ i ∈ l, p i = true ∧ f i = c) ∨ c ∈ s := by
    intro l
    induction l with
    | nil => intro s hs; exact ⟨hs, by simp⟩
    | cons x l ih =>
      intro s hs
      simp only [List.foldl_cons]
      by_cases hp : p x = true
      · rw [if_pos hp]
        obtain ⟨h1, h2⟩ := ih _ (sorted_insert (x := f x) hs)
        refine ⟨h1, fun c => ?_⟩
        rw [h2, mem_insert]
        simp only [List.mem_cons, exists_eq_or_imp]
        grind
      · rw [if_neg hp]
        obtain ⟨h1, h2⟩ := ih _ hs
        refine ⟨h1, fun c => ?_⟩
        rw [h2]
        simp only [List.mem_cons, exists_eq_or_imp]
        grind
  obtain ⟨h1, h2⟩ := key (List.range n) [] List.Pairwise.nil
  refine ⟨h1, fun c => ?_⟩
  rw [collect, h2]
  simp

theorem fold_spec (l : List Nat) : (l.foldl (fun s c => Numa.insert c s) []).Pairwise (· < ·) ∧
    ∀ c, c ∈ l.foldl (fun s c => Numa.insert c s) [] ↔ c ∈ l := by
  have := foldl_insert (r := l) (l := []) List.Pairwise.nil
  exact ⟨this.1, fun c => by simp [this.2 c]⟩

theorem fake_mem {topo : List NumaSys.Node} {n : NumaSys.Node} : n ∈ fake topo ↔
    ∃ m ∈ topo, n = { m with dist := (List.range topo.length).map fun i => if m.id = i then 10 else 20 } := by
  simp only [fake, List.mem_map]
  grind

/-- Adding the distances does not change what a topology describes. -/
theorem describes_fake {belongs : Nat → Nat → Prop} {topo : List NumaSys.Node} (h : Describes belongs topo) : Describes belongs (fake topo) := by
  obtain ⟨h1, h2, h3, h4, h5⟩ := h
  refine ⟨?_, fun n c => ?_, ?_, ?_, ?_⟩
  · simpa [fake, Function.comp_def] using h1
  · rw [← h2]
    constructor
    · rintro ⟨m, hm, rfl, hc⟩
      obtain ⟨k, hk, rfl⟩ := fake_mem.1 hm
      exact ⟨k, hk, rfl, hc⟩
    · rintro ⟨m, hm, rfl, hc⟩
      exact ⟨_, fake_mem.2 ⟨m, hm, rfl⟩, rfl, hc⟩
  · intro m hm
    obtain ⟨k, hk, rfl⟩ := fake_mem.1 hm
    exact h3 k hk
  · intro m hm
    obtain ⟨k, hk, rfl⟩ := fake_mem.1 hm
    exact h4 k hk
  · intro m hm m' hm' c hc hc'
    obtain ⟨k, hk, rfl⟩ := fake_mem.1 hm
    obtain ⟨k', hk', rfl⟩ := fake_mem.1 hm'
    rw [h5 k hk k' hk' c hc hc']

/-- The distances that AIX, FreeBSD, Solaris and Windows report are as documented if and only if every id is less than the number of
nodes. -/
theorem fake_distances (topo : List NumaSys.Node) : Distances (fake topo) ↔ ∀ n ∈ topo, n.id < topo.length := by
  constructor
  · intro h n hn
    have := (h _ (fake_mem.2 ⟨n, hn, rfl⟩)).1
    simp only at this
    have h2 := List.getElem?_eq_some_iff.1 this
    obtain ⟨h3, _⟩ := h2
    simpa using h3
  · intro h n hn
    obtain ⟨k, hk, rfl⟩ := fake_mem.1 hn
    refine ⟨?_, fun m hm hne => ?_⟩
    · simp [List.getElem?_map, h k hk]
    · obtain ⟨k', hk', rfl⟩ := fake_mem.1 hm
      refine ⟨20, ?_, by decide⟩
      simp only at hne
      simp only [List.getElem?_map]
      rw [List.getElem?_range (h k' hk')]
      simp [Ne.symm hne]

/-! ## AIX -/

/-- CPU `c` belongs to node `n`: the domain `n` is there and has the CPU. -/
def AixBelongs (rads : List Rad) (n c : Nat) : Prop :=
  ∃ r, rads[n]? = some r ∧ r.getrad = true ∧ c < r.maxprocs ∧ r.test c = true

/-- The system counts the CPUs of a domain correctly. -/
def Counts (r : Rad) : Prop := r.numprocs = 0 ↔ ∀ c < r.maxprocs, r.test c = false

theorem aixLoop_mem : ∀ (rs : List Rad) (i : Nat) (n : NumaSys.Node),
    n ∈ aixLoop i rs ↔ ∃ k r, rs[k]? = some r ∧ aixNode (i + k) r = some n
  | [], i, n => by simp [aixLoop]
  | r :: rs, i, n => by
    have ih := aixLoop_mem rs (i + 1) n
    have hsplit : (∃ k r', (r :: rs)[k]? = some r' ∧ aixNode (i + k) r' = some n) ↔
        aixNode i r = some n ∨ ∃ k r', rs[k]? = some r' ∧ aixNode (i + 1 + k) r' = some n := by
      constructor
      · rintro ⟨k, r', h1, h2⟩
        cases k with
        | zero => simp only [List.getElem?_cons_zero, Option.some.injEq] at h1; subst h1; exact .inl h2
        | succ k => exact .inr ⟨k, r', by simpa using h1, by rw [show i + 1 + k = i + (k + 1) by omega]; exact h2⟩
      · rintro (h | ⟨k, r', h1, h2⟩)
        · exact ⟨0, r, rfl, h⟩
        · exact ⟨k + 1, r', by simpa using h1, by rw [show i + (k + 1) = i + 1 + k by omega]; exact h2⟩
    rw [hsplit, ← ih]
    simp only [aixLoop]
    split <;> simp_all <;> grind

theorem aixNode_some {i : Nat} {r : Rad} {n : NumaSys.Node} (h : aixNode i r = some n) :
    r.getrad = true ∧ r.numprocs ≠ 0 ∧ n = ⟨i, collect r.maxprocs r.test id, []⟩ := by
  simp only [aixNode] at h
  split at h
  · cases h
  · split at h
    · cases h
    · simp_all

theorem aixLoop_ids : ∀ (rs : List Rad) (i : Nat), ((aixLoop i rs).map NumaSys.Node.id).Pairwise (· < ·) ∧ ∀ n ∈ aixLoop i rs, i ≤ n.id
  | [], i => by simp [aixLoop]
  | r :: rs, i => by
    obtain ⟨h1, h2⟩ := aixLoop_ids rs (i + 1)
    simp only [aixLoop]
    split
    · rename_i n hn
      have hid := (aixNode_some hn).2.2
      subst hid
      refine ⟨?_, ?_⟩
      · simp only [List.map_cons, List.pairwise_cons]
        refine ⟨fun j hj => ?_, h1⟩
        obtain ⟨m, hm, rfl⟩ := List.mem_map.1 hj
        have := h2 m hm
        omega
      · intro m hm
        rcases List.mem_cons.1 hm with rfl | hm
        · simp
        · have := h2 m hm; omega
    · exact ⟨h1, fun m hm => by have := h2 m hm; omega⟩

theorem lt_nodup {l : List Nat} (h : l.Pairwise (· < ·)) : l.Nodup := h.imp (fun h => Nat.ne_of_lt h)

theorem id_inj {topo : List NumaSys.Node} (h : (topo.map NumaSys.Node.id).Nodup) {m m' : NumaSys.Node} (hm : m ∈ topo) (hm' : m' ∈ topo)
    (he : m.id = m'.id) : m = m' := by
  induction topo with
  | nil => cases hm
  | cons x topo ih =>
    simp only [List.map_cons, List.nodup_cons] at h
    rcases List.mem_cons.1 hm with h1 | h1
    · rcases List.mem_cons.1 hm' with h2 | h2
      · rw [h1, h2]
      · exact absurd (h1 ▸ he ▸ List.mem_map_of_mem h2) h.1
    · rcases List.mem_cons.1 hm' with h2 | h2
      · exact absurd (h2 ▸ he ▸ List.mem_map_of_mem h1) h.1
      · exact ih h.2 h1 h2

/-- AIX: the topology describes the machine if the level `mcm` is there, the system counts correctly and no CPU is in two domains. -/
theorem aix_describes {maxlevel mcm : Nat} {rads : Nat → Option (List Rad)} {rs : List Rad} (hl : mcm ≤ maxlevel) (hr : rads mcm = some rs)
    (hc : ∀ r ∈ rs, Counts r) (hd : ∀ n n' c, AixBelongs rs n c → AixBelongs rs n' c → n = n') :
    ∃ topo, aix maxlevel mcm rads = .ok topo ∧ Describes (AixBelongs rs) topo := by
  have hf : (List.range (maxlevel + 1)).find? (fun i => decide (i = mcm)) = some mcm := by
    have h1 : mcm ∈ List.range (maxlevel + 1) := List.mem_range.2 (by omega)
    cases he : (List.range (maxlevel + 1)).find? (fun i => decide (i = mcm)) with
    | none => exact absurd (List.find?_eq_none.1 he mcm h1) (by simp)
    | some i => have := List.find?_some he; simp at this; rw [this]
  refine ⟨fake (aixLoop 0 rs), by simp only [aix, hf, hr, aixExplore, Out.map], describes_fake ?_⟩
  have hids := lt_nodup (aixLoop_ids rs 0).1
  have hcpus : ∀ n c, (∃ m ∈ aixLoop 0 rs, m.id = n ∧ c ∈ m.cpus) ↔ AixBelongs rs n c := by
    intro n c
    constructor
    · rintro ⟨m, hm, rfl, hcm⟩
      obtain ⟨k, r, h1, h2⟩ := (aixLoop_mem rs 0 m).1 hm
      obtain ⟨h3, h4, rfl⟩ := aixNode_some h2
      obtain ⟨i, hi, ht, rfl⟩ := ((collect_spec _ _ _).2 c).1 hcm
      exact ⟨r, by simpa using h1, h3, hi, ht⟩
    · rintro ⟨r, h1, h2, h3, h4⟩
      have hn : r.numprocs ≠ 0 := fun h0 => by
        have := (hc r (List.mem_of_getElem? h1)).1 h0 c h3
        rw [h4] at this; cases this
      refine ⟨⟨n, collect r.maxprocs r.test id, []⟩, (aixLoop_mem rs 0 _).2 ⟨n, r, h1, ?_⟩, rfl, ((collect_spec _ _ _).2 c).2 ⟨c, h3, h4, rfl⟩⟩
      simp [aixNode, h2, hn]
  refine ⟨hids, hcpus, ?_, ?_, ?_⟩
  · intro m hm
    obtain ⟨k, r, h1, h2⟩ := (aixLoop_mem rs 0 m).1 hm
    obtain ⟨_, _, rfl⟩ := aixNode_some h2
    exact (collect_spec _ _ _).1
  · intro m hm he
    obtain ⟨k, r, h1, h2⟩ := (aixLoop_mem rs 0 m).1 hm
    obtain ⟨_, h4, rfl⟩ := aixNode_some h2
    refine h4 ((hc r (List.mem_of_getElem? h1)).2 fun c hcm => ?_)
    cases ht : r.test c with
    | false => rfl
    | true =>
      have : c ∈ collect r.maxprocs r.test id := ((collect_spec _ _ _).2 c).2 ⟨c, hcm, ht, rfl⟩
      simp only at he
      rw [he] at this; cases this
  · intro m hm m' hm' c hcm hcm'
    exact id_inj hids hm hm' (hd _ _ c ((hcpus _ _).1 ⟨m, hm, rfl, hcm⟩) ((hcpus _ _).1 ⟨m', hm', rfl, hcm'⟩))

theorem aixLoop_length (rs : List Rad) (h : ∀ r ∈ rs, r.getrad = true ∧ r.numprocs ≠ 0) : ∀ i, (aixLoop i rs).length = rs.length := by
  induction rs with
  | nil => intro i; rfl
  | cons r rs ih =>
    intro i
    have h1 := h r (List.mem_cons_self ..)
    simp [aixLoop, aixNode, h1, ih (fun x hx => h x (List.mem_cons_of_mem _ hx))]

/-- AIX: the distances are as documented if no domain is left out. -/
theorem aix_distances_partial {maxlevel mcm : Nat} {rads : Nat → Option (List Rad)} {rs : List Rad} {topo : List NumaSys.Node} (hl : mcm ≤ maxlevel)
    (hr : rads mcm = some rs) (hall : ∀ r ∈ rs, r.getrad = true ∧ r.numprocs ≠ 0) (ht : aix maxlevel mcm rads = .ok topo) : Distances topo := by
  have hf : (List.range (maxlevel + 1)).find? (fun i => decide (i = mcm)) = some mcm := by
    have h1 : mcm ∈ List.range (maxlevel + 1) := List.mem_range.2 (by omega)
    cases he : (List.range (maxlevel + 1)).find? (fun i => decide (i = mcm)) with
    | none => exact absurd (List.find?_eq_none.1 he mcm h1) (by simp)
    | some i => have := List.find?_some he; simp at this; rw [this]
  simp only [aix, hf, hr, aixExplore, Out.map, Out.ok.injEq] at ht
  subst ht
  rw [fake_distances]
  intro n hn
  obtain ⟨k, r, h1, h2⟩ := (aixLoop_mem rs 0 n).1 hn
  obtain ⟨_, _, rfl⟩ := aixNode_some h2
  have := (List.getElem?_eq_some_iff.1 h1).1
  rw [aixLoop_length rs hall 0]
  simpa using this

/-- The domains of the examples: CPUs 0 and 1, no CPU, CPUs 2 and 3. -/
def rad01 : Rad := ⟨true, 2, 4, fun c => decide (c < 2)⟩
def rad0 : Rad := ⟨true, 0, 4, fun _ => false⟩
def rad23 : Rad := ⟨true, 2, 4, fun c => decide (2 ≤ c)⟩

/-- AIX: a domain without CPUs is left out, and the ids of the others no longer agree with the indices: the node with id 2 has no distance
to itself, and node 0 has no distance to it. -/
theorem aix_skips : aix 3 2 (fun l => if l = 2 then some [rad01, rad0, rad23] else none) = .ok [⟨0, [0, 1], [10, 20]⟩, ⟨2, [2, 3], [20, 20]⟩] ∧
    ¬ Distances [⟨0, [0, 1], [10, 20]⟩, ⟨2, [2, 3], [20, 20]⟩] := by
  refine ⟨by decide +kernel, fun h => ?_⟩
  have := (h ⟨2, [2, 3], [20, 20]⟩ (by simp)).1
  simp at this

example : (2 : Nat) ≤ 3 ∧ (∀ r ∈ [rad01, rad0, rad23], Counts r) ∧
    ∀ n n' c, AixBelongs [rad01, rad0, rad23] n c → AixBelongs [rad01, rad0, rad23] n' c → n = n' := by
  refine ⟨by decide, ?_, ?_⟩
  · intro r hr
    simp only [List.mem_cons, List.not_mem_nil, or_false] at hr
    rcases hr with rfl | rfl | rfl <;> simp only [Counts, rad01, rad0, rad23] <;> decide
  · rintro n n' c ⟨r, h1, h2, h3, h4⟩ ⟨r', h1', h2', h3', h4'⟩
    match n, n' with
    | 0, 0 => rfl
    | 1, 1 => rfl
    | 2, 2 => rfl
    | 0, 1 => simp at h1'; subst h1'; cases h4'
    | 0, 2 => simp at h1 h1'; subst h1 h1'; simp [rad01, rad23] at h4 h4'; omega
    | 1, 0 => simp at h1; subst h1; cases h4
    | 1, 2 => simp at h1; subst h1; cases h4
    | 2, 0 => simp at h1 h1'; subst h1 h1'; simp [rad01, rad23] at h4 h4'; omega
    | 2, 1 => simp at h1'; subst h1'; cases h4'
    | n + 3, _ => simp at h1
    | _, n + 3 => simp at h1'

example : aix 1 1 (fun _ => some [rad01, rad23]) = .ok [⟨0, [0, 1], [10, 20]⟩, ⟨1, [2, 3], [20, 10]⟩] := by decide +kernel

/-! ## FreeBSD -/

/-- FreeBSD: there is one node, it has exactly the CPUs of the mask, and its distance to itself is 10. -/
theorem freebsd_describes {setSize : Nat} {mask : Nat → Bool} (h : ∃ c, c < setSize ∧ mask c = true) :
    ∃ topo, freebsd setSize (some mask) = .ok topo ∧ Describes (fun n c => n = 0 ∧ c < setSize ∧ mask c = true) topo ∧ Distances topo := by
  refine ⟨_, rfl, describes_fake ⟨by simp, ?_, ?_, ?_, ?_⟩, (fake_distances _).2 (by simp)⟩
  · intro n c
    simp only [List.mem_singleton, exists_eq_left, (collect_spec _ _ _).2]
    simp only [id_eq]
    grind
  · intro m hm
    simp only [List.mem_singleton] at hm
    subst hm
    exact (collect_spec _ _ _).1
  · intro m hm he
    simp only [List.mem_singleton] at hm
    subst hm
    obtain ⟨c, h1, h2⟩ := h
    have : c ∈ collect setSize mask id := ((collect_spec _ _ _).2 c).2 ⟨c, h1, h2, rfl⟩
    simp only at he
    rw [he] at this; cases this
  · intro m hm m' hm' _ _ _
    simp only [List.mem_singleton] at hm hm'
    rw [hm, hm']

example : freebsd 8 (some fun c => decide (c = 1 ∨ c = 5)) = .ok [⟨0, [1, 5], [10]⟩] := by decide +kernel

/-! ## Solaris -/

/-- The CPUs of a machine and the group with memory that is closest to each of them: `at` is the closest group above. -/
inductive Home : Option Nat → Lgrp → Nat → Option Nat → Prop
  | own {above id own mem kids c} (h : c ∈ own) : Home above (.mk id own mem kids) c (if mem then some id else above)
  | kid {above id own mem kids g c n} (hg : g ∈ kids) (h : Home (if mem then some id else above) g c n) : Home above (.mk id own mem kids) c n

mutual

/-- The ids of the groups. -/
def ids : Lgrp → List Nat
  | .mk id _ _ kids => id :: idsAll kids

def idsAll : List Lgrp → List Nat
  | [] => []
  | g :: gs => ids g ++ idsAll gs

end

mutual

/-- The groups with memory are exactly the leaves. -/
def LeafMemory : Lgrp → Prop
  | .mk _ own mem kids => (mem = true ↔ kids = []) ∧ (mem = false → own = []) ∧ (mem = true → own ≠ []) ∧ LeafMemoryAll kids

def LeafMemoryAll : List Lgrp → Prop
  | [] => True
  | g :: gs => LeafMemory g ∧ LeafMemoryAll gs

end

mutual

theorem explore_ids : ∀ g : Lgrp, ((explore g).map NumaSys.Node.id).Sublist (ids g)
  | .mk id own mem kids => by
    simp only [explore, ids, List.map_append]
    split
    · exact (exploreAll_ids kids).cons_cons id
    · simpa using (exploreAll_ids kids).cons id

theorem exploreAll_ids : ∀ gs : List Lgrp, ((exploreAll gs).map NumaSys.Node.id).Sublist (idsAll gs)
  | [] => by simp [exploreAll, idsAll]
  | g :: gs => by
    simp only [exploreAll, idsAll, List.map_append]
    exact (explore_ids g).append (exploreAll_ids gs)

end

mutual

theorem explore_leaf : ∀ (g : Lgrp), LeafMemory g → ∀ above, (∀ n c, (∃ m ∈ explore g, m.id = n ∧ c ∈ m.cpus) ↔ Home above g c (some n)) ∧
    (∀ m ∈ explore g, m.cpus.Pairwise (· < ·) ∧ m.cpus ≠ []) ∧ ∀ c, c ∈ g.cpus ↔ ∃ m ∈ explore g, c ∈ m.cpus
  | .mk id own mem kids, h, above => by
    simp only [LeafMemory] at h
    obtain ⟨h1, h2, h3, h4⟩ := h
    cases mem with
    | true =>
      have hk : kids = [] := h1.1 rfl
      subst hk
      have hown := h3 rfl
      simp only [explore, exploreAll, Lgrp.cpusAll, Lgrp.cpus, if_true, List.append_nil, List.mem_singleton, exists_eq_left, forall_eq, (fold_spec own).2]
      refine ⟨fun n c => ⟨?_, ?_⟩, ⟨(fold_spec own).1, fun he => ?_⟩, fun c => by simp⟩
      · rintro ⟨rfl, hc⟩
        have := Home.own (above := above) (id := id) (mem := true) (kids := []) hc
        simpa using this
      · intro hh
        cases hh with
        | own hc => simp_all
        | kid hg _ => cases hg
      · obtain ⟨c, hc⟩ := List.exists_mem_of_ne_nil _ hown
        have := ((fold_spec own).2 c).2 hc
        rw [he] at this; cases this
    | false =>
      have hown := h2 rfl
      subst hown
      obtain ⟨i1, i2, i3⟩ := exploreAll_leaf kids h4 above
      simp only [explore, Bool.false_eq_true, if_false, List.nil_append, Lgrp.cpus]
      refine ⟨fun n c => ?_, i2, i3⟩
      rw [i1]
      constructor
      · rintro ⟨g, hg, hh⟩
        exact .kid hg (by simpa using hh)
      · generalize hsn : some n = sn
        intro hh
        cases hh with
        | own hc => cases hc
        | kid hg hh => subst hsn; exact ⟨_, hg, by simpa using hh⟩

theorem exploreAll_leaf : ∀ (gs : List Lgrp), LeafMemoryAll gs → ∀ above,
    (∀ n c, (∃ m ∈ exploreAll gs, m.id = n ∧ c ∈ m.cpus) ↔ ∃ g ∈ gs, Home above g c (some n)) ∧
    (∀ m ∈ exploreAll gs, m.cpus.Pairwise (· < ·) ∧ m.cpus ≠ []) ∧ ∀ c, c ∈ Lgrp.cpusAll gs ↔ ∃ m ∈ exploreAll gs, c ∈ m.cpus
  | [], _, _ => by simp [exploreAll, Lgrp.cpusAll]
  | g :: gs, h, above => by
    simp only [LeafMemoryAll] at h
    obtain ⟨i1, i2, i3⟩ := explore_leaf g h.1 above
    obtain ⟨j1, j2, j3⟩ := exploreAll_leaf gs h.2 above
    simp only [exploreAll, Lgrp.cpusAll, List.mem_append, List.mem_cons, exists_eq_or_imp]
    refine ⟨fun n c => ?_, ?_, fun c => ?_⟩
    · rw [← i1, ← j1]; grind
    · intro m hm
      rcases hm with hm | hm
      · exact i2 m hm
      · exact j2 m hm
    · rw [i3, j3]; grind

end

/-- Solaris: the topology describes the machine if the groups with memory are exactly the leaves, and all CPUs belong to leaves.
Missing: other machines, see `solaris_twice`, `solaris_loses` and `solaris_no_cpu`. -/
theorem solaris_describes_partial {g : Lgrp} (hm : LeafMemory g) (hid : (ids g).Nodup)
    (hd : ∀ n n' c, Home none g c (some n) → Home none g c (some n') → n = n') :
    ∃ topo, solaris (some g) = .ok topo ∧ Describes (fun n c => Home none g c (some n)) topo ∧ ∀ c ∈ g.cpus, ∃ n ∈ topo, c ∈ n.cpus := by
  obtain ⟨h1, h2, h3⟩ := explore_leaf g hm none
  have hids : ((explore g).map NumaSys.Node.id).Nodup := (explore_ids g).nodup hid
  refine ⟨_, rfl, describes_fake ⟨hids, h1, fun m hm => (h2 m hm).1, fun m hm => (h2 m hm).2, ?_⟩, ?_⟩
  · intro m hm m' hm' c hc hc'
    exact id_inj hids hm hm' (hd _ _ c ((h1 _ _).1 ⟨m, hm, rfl, hc⟩) ((h1 _ _).1 ⟨m', hm', rfl, hc'⟩))
  · intro c hc
    obtain ⟨m, hm, hcm⟩ := (h3 c).1 hc
    exact ⟨_, fake_mem.2 ⟨m, hm, rfl⟩, hcm⟩

/-- Solaris: a CPU below two groups with memory is listed twice. -/
theorem solaris_twice : solaris (some (.mk 0 [0] true [.mk 1 [1] true []])) = .ok [⟨0, [0, 1], [10, 20]⟩, ⟨1, [1], [20, 10]⟩] ∧
    ∀ belongs, ¬ Describes belongs [⟨0, [0, 1], [10, 20]⟩, ⟨1, [1], [20, 10]⟩] := by
  refine ⟨by decide +kernel, fun belongs h => ?_⟩
  have := h.once ⟨0, [0, 1], [10, 20]⟩ (by simp) ⟨1, [1], [20, 10]⟩ (by simp) 1 (by simp) (by simp)
  cases this

/-- Solaris: a CPU in a group without memory is not listed. -/
theorem solaris_loses : solaris (some (.mk 0 [] false [.mk 1 [0] true [], .mk 2 [1] false []])) = .ok [⟨1, [0], [20]⟩] := by decide +kernel

/-- Solaris: a group with memory and without CPUs is listed, with an empty set of CPUs; and since the root has the id 0 and is not a node
itself, the distances are wrong even on an ordinary machine with two nodes. -/
theorem solaris_no_cpu : solaris (some (.mk 0 [] false [.mk 1 [0] true [], .mk 2 [] true []])) = .ok [⟨1, [0], [20, 10]⟩, ⟨2, [], [20, 20]⟩] ∧
    ¬ Distances [⟨1, [0], [20, 10]⟩, ⟨2, [], [20, 20]⟩] := by
  refine ⟨by decide +kernel, fun h => ?_⟩
  have := (h ⟨2, [], [20, 20]⟩ (by simp)).1
  simp at this

/-- An ordinary machine with two nodes. -/
def twoNodes : Lgrp := .mk 0 [] false [.mk 1 [0, 1] true [], .mk 2 [2, 3] true []]

example : LeafMemory twoNodes ∧ (ids twoNodes).Nodup ∧ solaris (some twoNodes) = .ok [⟨1, [0, 1], [20, 10]⟩, ⟨2, [2, 3], [20, 20]⟩] := by
  refine ⟨by simp [LeafMemory, LeafMemoryAll, twoNodes], by decide, by decide +kernel⟩

/-! ## Windows -/

/-- Processor `i` of group `g` has the number `64 * g + i`. -/
def WinBelongs (rs : List Rec) (n c : Nat) : Prop := ∃ r ∈ rs, r.node = n ∧ ∃ i, i < 64 ∧ r.mask.testBit i = true ∧ c = 64 * r.group + i

/-- The buffer that Windows fills: records of positive length, `length` bytes altogether; masks have `width` bits, group numbers 16. -/
structure Filled (width : Nat) (rs : List Rec) (length : Nat) : Prop where
  size : ∀ r ∈ rs, 0 < r.size
  sum : (rs.map Rec.size).sum = length
  dword : length < U32
  bits : ∀ r ∈ rs, r.mask < 2 ^ width
  word : ∀ r ∈ rs, r.group < 65536
  width : width = 32 ∨ width = 64

theorem walk_all (width : Nat) : ∀ (rs : List Rec) (length : Nat), rs ≠ [] → (∀ r ∈ rs, 0 < r.size) → (rs.map Rec.size).sum = length → length < U32 →
    walk width rs length = .ok (rs.map (winNode width))
  | [], _, h, _, _, _ => absurd rfl h
  | r :: rs, length, _, h1, h2, h3 => by
    simp only [List.map_cons, List.sum_cons] at h2
    have hr := h1 r (List.mem_cons_self ..)
    have he : (length + U32 - r.size) % U32 = (rs.map Rec.size).sum := by simp only [U32] at *; omega
    simp only [walk, he]
    cases rs with
    | nil => simp
    | cons r' rs =>
      have hr' := h1 r' (by simp)
      have hpos : ((r' :: rs).map Rec.size).sum ≠ 0 := by simp; omega
      rw [if_pos hpos, walk_all width (r' :: rs) _ (by simp) (fun x hx => h1 x (List.mem_cons_of_mem _ hx)) rfl (by simp only [U32] at *; omega)]
      rfl

theorem winNode_cpus {width : Nat} {r : Rec} (hb : r.mask < 2 ^ width) (hg : r.group < 65536) (hw : width = 32 ∨ width = 64) (c : Nat) :
    c ∈ (winNode width r).cpus ↔ ∃ i, i < 64 ∧ r.mask.testBit i = true ∧ c = 64 * r.group + i := by
  simp only [winNode, (fold_spec _).2, cpuSet, (collect_spec _ _ _).2]
  constructor
  · rintro ⟨i, h1, h2, h3⟩
    have h4 : i < 64 := by omega
    refine ⟨i, h4, h2, ?_⟩
    rw [Nat.mod_eq_of_lt (by simp only [U32]; omega)] at h3
    exact h3.symm
  · rintro ⟨i, h1, h2, h3⟩
    have h4 : i < width := by
      have := Nat.ge_two_pow_of_testBit h2
      have h5 : 2 ^ i < 2 ^ width := Nat.lt_of_le_of_lt this hb
      exact (Nat.pow_lt_pow_iff_right (by decide)).1 h5
    exact ⟨i, h4, h2, by rw [Nat.mod_eq_of_lt (by simp only [U32]; omega)]; exact h3.symm⟩

/-- Windows: the topology describes the machine if every node has a CPU. Missing: nodes without CPUs, see `windows_no_cpu`. -/
theorem windows_describes_partial {width : Nat} {rs : List Rec} {length : Nat} (hf : Filled width rs length) (hid : (rs.map Rec.node).Nodup)
    (hne : ∀ r ∈ rs, r.mask ≠ 0) (hd : ∀ n n' c, WinBelongs rs n c → WinBelongs rs n' c → n = n') :
    ∃ topo, windows width (some (rs, length)) = .ok topo ∧ Describes (WinBelongs rs) topo := by
  have hcp := fun r hr => winNode_cpus (hf.bits r hr) (hf.word r hr) hf.width
  have hids : ((rs.map (winNode width)).map NumaSys.Node.id).Nodup := by
    have : (rs.map (winNode width)).map NumaSys.Node.id = rs.map Rec.node := by simp [winNode, Function.comp_def]
    rw [this]; exact hid
  have hw : windows width (some (rs, length)) = .ok (fake (rs.map (winNode width))) := by
    simp only [windows]
    by_cases he : rs = []
    · subst he; rfl
    · rw [if_neg he, walk_all width rs length he hf.size hf.sum hf.dword]; rfl
  have hcpus : ∀ n c, (∃ m ∈ rs.map (winNode width), m.id = n ∧ c ∈ m.cpus) ↔ WinBelongs rs n c := by
    intro n c
    constructor
    · rintro ⟨m, hm, rfl, hc⟩
      obtain ⟨r, hr, rfl⟩ := List.mem_map.1 hm
      exact ⟨r, hr, rfl, (hcp r hr c).1 hc⟩
    · rintro ⟨r, hr, rfl, hc⟩
      exact ⟨_, List.mem_map_of_mem hr, rfl, (hcp r hr c).2 hc⟩
  refine ⟨_, hw, describes_fake ⟨hids, hcpus, ?_, ?_, ?_⟩⟩
  · intro m hm
    obtain ⟨r, hr, rfl⟩ := List.mem_map.1 hm
    exact (fold_spec _).1
  · intro m hm he
    obtain ⟨r, hr, rfl⟩ := List.mem_map.1 hm
    obtain ⟨i, hi⟩ := Nat.exists_testBit_of_ne_zero (hne r hr)
    have hi64 : i < 64 := by
      have h1 := Nat.ge_two_pow_of_testBit hi
      have h5 : 2 ^ i < 2 ^ width := Nat.lt_of_le_of_lt h1 (hf.bits r hr)
      have := (Nat.pow_lt_pow_iff_right (a := 2) (by decide)).1 h5
      have := hf.width
      omega
    have := (hcp r hr _).2 ⟨i, hi64, hi, rfl⟩
    rw [he] at this; cases this
  · intro m hm m' hm' c hc hc'
    exact id_inj hids hm hm' (hd _ _ c ((hcpus _ _).1 ⟨m, hm, rfl, hc⟩) ((hcpus _ _).1 ⟨m', hm', rfl, hc'⟩))

/-- Windows: the distances are as documented if the nodes are numbered without gaps. Missing: nodes with gaps, see `windows_no_cpu`. -/
theorem windows_distances_partial {width : Nat} {rs : List Rec} {length : Nat} {topo : List NumaSys.Node} (hf : Filled width rs length)
    (hn : ∀ r ∈ rs, r.node < rs.length) (ht : windows width (some (rs, length)) = .ok topo) : Distances topo := by
  simp only [windows] at ht
  by_cases he : rs = []
  · subst he
    simp only [if_true, Out.ok.injEq] at ht
    subst ht
    exact (fake_distances []).2 (by simp)
  · rw [if_neg he, walk_all width rs length he hf.size hf.sum hf.dword] at ht
    simp only [Out.map, Out.ok.injEq] at ht
    subst ht
    rw [fake_distances]
    intro n hm
    obtain ⟨r, hr, rfl⟩ := List.mem_map.1 hm
    simpa [winNode] using hn r hr

/-- Windows: a node without processors is listed with an empty set of CPUs (the constructor of `numa::algo::work_stealing` then takes the last
element of an empty set); and if numbers are left out, the distances are wrong. -/
theorem windows_no_cpu : windows 64 (some ([⟨48, 0, 0, 3⟩, ⟨48, 2, 0, 0⟩], 96)) = .ok [⟨0, [0, 1], [10, 20]⟩, ⟨2, [], [20, 20]⟩] ∧
    ¬ Distances [⟨0, [0, 1], [10, 20]⟩, ⟨2, [], [20, 20]⟩] ∧ ∀ belongs, ¬ Describes belongs [⟨0, [0, 1], [10, 20]⟩, ⟨2, [], [20, 20]⟩] := by
  refine ⟨by decide +kernel, fun h => ?_, fun belongs h => ?_⟩
  · have := (h ⟨2, [], [20, 20]⟩ (by simp)).1
    simp at this
  · exact h.nonempty ⟨2, [], [20, 20]⟩ (by simp) rfl

/-- The machine of the examples: two groups. -/
def twoGroups : List Rec := [⟨48, 0, 0, 5⟩, ⟨56, 1, 1, 2⟩]

example : Filled 64 twoGroups 104 := by
  constructor <;> simp [twoGroups, U32]

example : windows 64 (some (twoGroups, 104)) = .ok [⟨0, [0, 2], [10, 20]⟩, ⟨1, [65], [20, 10]⟩] := by decide +kernel

/-! ## Linux -/

/-- The line that Linux writes: the distances to the nodes that are online, in the order of their ids. -/
def distLine : List Nat → List Char
  | [] => []
  | [d] => dec d
  | d :: ds => dec d ++ ' ' :: distLine ds

theorem no_blank (n : Nat) : ' ' ∉ dec n := fun h => absurd (dec_digits n _ h) (by decide)

theorem trim_dec (n : Nat) : trim (dec n) = dec n := by
  have := trim_pad (l := []) (t := dec n) (r := []) (by simp) (by simp) (dec_ne n) (fun c hc => digit_space (dec_digits n c hc))
  simpa using this

/-- Linux: parsing the line yields exactly the distances. -/
theorem distances_parse : ∀ (ds : List Nat), ds ≠ [] → (∀ d ∈ ds, d < U32) → distFromLine (distLine ds) = some ds
  | [], h, _ => absurd rfl h
  | [d], _, hd => by
    have h1 := hd d (by simp)
    simp [distFromLine, distLine, split_none (no_blank d), distEntries, trim_dec, stoul_dec (u32_u64 h1), Nat.mod_eq_of_lt h1]
  | d :: d' :: ds, _, hd => by
    have h1 := hd d (by simp)
    have ih := distances_parse (d' :: ds) (by simp) (fun x hx => hd x (List.mem_cons_of_mem _ hx))
    simp only [distFromLine] at ih ⊢
    rw [distLine, split_at (no_blank d)]
    · simp [distEntries, ih, trim_dec, stoul_dec (u32_u64 h1), Nat.mod_eq_of_lt h1]
    · simp

/-- What Linux writes about the distances: `onl` are the nodes that are online, in increasing order, `d n m` the distance. -/
structure Sysfs (onl : List Nat) (d : Nat → Nat → Nat) (file : Nat → Option (List Char)) : Prop where
  file : ∀ n ∈ onl, file n = some (distLine (onl.map (d n)))
  self : ∀ n ∈ onl, d n n = 10
  other : ∀ n ∈ onl, ∀ m ∈ onl, n ≠ m → 10 < d n m
  small : ∀ n m, d n m < U32

theorem linuxNodes_eq {onl : List Nat} {d : Nat → Nat → Nat} {file : Nat → Option (List Char)} (hs : Sysfs onl d file) :
    ∀ (ns : List Numa.Node), (∀ n ∈ ns, n.id ∈ onl) → linuxNodes file ns = some (ns.map fun n => ⟨n.id, n.cpus, onl.map (d n.id)⟩)
  | [], _ => rfl
  | n :: ns, h => by
    have h1 := h n (by simp)
    have hne : onl.map (d n.id) ≠ [] := by intro he; simp at he; rw [he] at h1; cases h1
    have hp : distFromLine (distLine (onl.map (d n.id))) = some (onl.map (d n.id)) := distances_parse _ hne (fun x hx => by
      obtain ⟨m, _, rfl⟩ := List.mem_map.1 hx
      exact hs.small _ _)
    simp [linuxNodes, linuxNode, hs.file _ h1, hp, linuxNodes_eq hs ns (fun x hx => h x (List.mem_cons_of_mem _ hx))]

/-- Linux: every node of the first part is listed, with its CPUs; entry `k` of its distances is the distance to the `k`-th node that is
online; and they are as documented if the nodes that are online are numbered `0 … n - 1`. Missing: other machines, see `linux_gap`. -/
theorem linux_distances_partial {onl : List Nat} {d : Nat → Nat → Nat} {file : Nat → Option (List Char)} {ns : List Numa.Node} (hs : Sysfs onl d file)
    (hn : ∀ n ∈ ns, n.id ∈ onl) :
    ∃ topo : List NumaSys.Node, linuxNodes file ns = some topo ∧ topo.map (fun n => (⟨n.id, n.cpus⟩ : Numa.Node)) = ns ∧
      (∀ n ∈ topo, ∀ k : Nat, n.dist[k]? = onl[k]?.map (d n.id)) ∧ ((∃ k, onl = List.range k) → Distances topo) := by
  refine ⟨_, linuxNodes_eq hs ns hn, by simp [Function.comp_def], ?_, ?_⟩
  · intro n hm k
    obtain ⟨n', hn', rfl⟩ := List.mem_map.1 hm
    simp
  · rintro ⟨k, rfl⟩ n hm
    obtain ⟨n', hn', rfl⟩ := List.mem_map.1 hm
    have h1 := hn n' hn'
    refine ⟨?_, fun m hm' hne => ?_⟩
    · have := hs.self _ h1
      simp [List.getElem?_range (List.mem_range.1 h1), this]
    · obtain ⟨m', hm2, rfl⟩ := List.mem_map.1 hm'
      have h2 := hn m' hm2
      refine ⟨d n'.id m'.id, by simp [List.getElem?_range (List.mem_range.1 h2)], hs.other _ h1 _ h2 (Ne.symm hne)⟩

/-- Linux: if the nodes 0 and 8 are online (as on POWER machines), the distances of node 8 have two entries. -/
theorem linux_gap : linuxNodes (fun i => if i = 0 then some "10 40".toList else some "40 10".toList) [⟨0, [0]⟩, ⟨8, [1]⟩] =
      some [⟨0, [0], [10, 40]⟩, ⟨8, [1], [40, 10]⟩] ∧ ¬ Distances [⟨0, [0], [10, 40]⟩, ⟨8, [1], [40, 10]⟩] := by
  refine ⟨by decide +kernel, fun h => ?_⟩
  have := (h ⟨8, [1], [40, 10]⟩ (by simp)).1
  simp at this

example : Sysfs [0, 1] (fun n m => if n = m then 10 else 21) (fun n => some (distLine ([0, 1].map fun m => if n = m then 10 else 21))) := by
  constructor
  · intro n hn; rfl
  · simp
  · intro n _ m _ h; simp [h]
  · intro n m; split <;> decide

/-! ## Pinning (C107) -/

/-- `pin_thread( c)` is right: the thread runs on this CPU and no other, or an exception is thrown. -/
def PinOk (p : Pin) (cpu : Nat × Nat) : Prop := p = .throws ∨ p = .to [cpu]

/-- Linux: right for every number. -/
theorem pin_linux (online : Nat → Bool) (c : Nat) :
    PinOk (pinLinux online c) (0, c) ∧ (online c = true → c < 1024 → pinLinux online c = .to [(0, c)]) := by
  simp only [PinOk, pinLinux, setAffinity]
  grind

/-- FreeBSD: right for every number below `CPU_SETSIZE`; a CPU that `topology()` lists is one, and the thread is pinned to it.
Missing: greater numbers, see `pin_freebsd_outside`. -/
theorem pin_freebsd_partial {setSize : Nat} {online : Nat → Bool} {c : Nat} (h : c < setSize) :
    PinOk (pinFreebsd setSize online c) (0, c) ∧ (online c = true → pinFreebsd setSize online c = .to [(0, c)]) := by
  simp only [PinOk, pinFreebsd, setAffinity, if_pos h]
  grind

theorem pin_freebsd_listed {setSize : Nat} {online : Nat → Bool} {topo : List NumaSys.Node} {n : NumaSys.Node} {c : Nat}
    (ht : freebsd setSize (some online) = .ok topo) (hn : n ∈ topo) (hc : c ∈ n.cpus) : pinFreebsd setSize online c = .to [(0, c)] := by
  simp only [freebsd, Out.ok.injEq] at ht
  subst ht
  obtain ⟨k, hk, rfl⟩ := fake_mem.1 hn
  simp only [List.mem_singleton] at hk
  subst hk
  obtain ⟨i, h1, h2, rfl⟩ := ((collect_spec _ _ _).2 c).1 hc
  exact (pin_freebsd_partial h1).2 h2

/-- FreeBSD: a greater number writes outside of the set. -/
theorem pin_freebsd_outside (setSize : Nat) (online : Nat → Bool) : pinFreebsd setSize online setSize = .ub := by
  simp [pinFreebsd]

/-- Solaris: right for every number below `2^31`. Missing: the others, see `pin_solaris_unpins`. -/
theorem pin_solaris_partial {online : Nat → Bool} {c : Nat} (h : c < 2147483648) :
    PinOk (pinSolaris online c) (0, c) ∧ (online c = true → pinSolaris online c = .to [(0, c)]) := by
  simp only [PinOk, pinSolaris, toInt, if_pos h]
  grind

/-- Solaris: `pin_thread( 2^32 - 1)` lets the thread run everywhere, `pin_thread( 2^32 - 2)` does nothing; neither throws. -/
theorem pin_solaris_unpins (online : Nat → Bool) : pinSolaris online 4294967295 = .freed ∧ pinSolaris online 4294967294 = .unchanged := by
  simp [pinSolaris, toInt, U32]

/-- AIX: right for every number below `2^15`. Missing: the others, see `pin_aix_other`. -/
theorem pin_aix_partial {online : Nat → Bool} {c : Nat} (h : c < 32768) :
    PinOk (pinAix online c) (0, c) ∧ (online c = true → pinAix online c = .to [(0, c)]) := by
  have h1 : c % 65536 = c := Nat.mod_eq_of_lt (by omega)
  simp only [PinOk, pinAix, toShort, h1, if_pos h]
  grind

/-- AIX: `pin_thread( 65539)` pins the thread to CPU 3, and `pin_thread( 65535)` lets it run everywhere. -/
theorem pin_aix_other : pinAix (fun c => decide (c < 8)) 65539 = .to [(0, 3)] ∧ pinAix (fun c => decide (c < 8)) 65535 = .freed := by decide +kernel

/-- Windows, 64 bits: right for every number below `2^22`: the thread runs on processor `c % 64` of group `c / 64`.
Missing: greater numbers, see `pin_windows_other`, and 32 bits, see `pin_windows_shift`. -/
theorem pin_windows_partial {online : Nat → Nat → Bool} {c : Nat} (h : c < 4194304) :
    PinOk (pinWindows 64 online c) (c / 64, c % 64) ∧ (online (c / 64) (c % 64) = true → pinWindows 64 online c = .to [(c / 64, c % 64)]) := by
  have h1 : c / 64 % 65536 = c / 64 := Nat.mod_eq_of_lt (by omega)
  have h2 : c % 64 < 64 := Nat.mod_lt _ (by decide)
  simp only [PinOk, pinWindows, h1, if_pos h2]
  grind

/-- Windows, 32 or 64 bits: the numbers that `topology()` assigns come back: pinning to a CPU it lists pins to the processor of the node that
this number stands for. -/
theorem pin_windows_listed {width : Nat} {rs : List Rec} {length : Nat} {topo : List NumaSys.Node} {n : NumaSys.Node} {c : Nat}
    {online : Nat → Nat → Bool} (hf : Filled width rs length) (hon : ∀ r ∈ rs, ∀ i, r.mask.testBit i = true → online r.group i = true)
    (ht : windows width (some (rs, length)) = .ok topo) (hn : n ∈ topo) (hc : c ∈ n.cpus) :
    ∃ r ∈ rs, r.node = n.id ∧ ∃ i, r.mask.testBit i = true ∧ c = 64 * r.group + i ∧ pinWindows width online c = .to [(r.group, i)] := by
  simp only [windows] at ht
  by_cases he : rs = []
  · subst he
    simp only [if_true, Out.ok.injEq] at ht
    subst ht
    simp [fake] at hn
  · rw [if_neg he, walk_all width rs length he hf.size hf.sum hf.dword] at ht
    simp only [Out.map, Out.ok.injEq] at ht
    subst ht
    obtain ⟨k, hk, rfl⟩ := fake_mem.1 hn
    obtain ⟨r, hr, rfl⟩ := List.mem_map.1 hk
    obtain ⟨i, h1, h2, h3⟩ := (winNode_cpus (hf.bits r hr) (hf.word r hr) hf.width c).1 hc
    refine ⟨r, hr, rfl, i, h2, h3, ?_⟩
    have hg := hf.word r hr
    have h4 : c / 64 % 65536 = r.group := by omega
    have h5 : c % 64 = i := by omega
    have h6 : i < width := by
      have := Nat.ge_two_pow_of_testBit h2
      exact (Nat.pow_lt_pow_iff_right (a := 2) (by decide)).1 (Nat.lt_of_le_of_lt this (hf.bits r hr))
    simp [pinWindows, h4, h5, h6, hon r hr i h2]

/-- Windows: `pin_thread( 2^22 + 3)` pins the thread to processor 3 of group 0, that is to CPU 3. -/
theorem pin_windows_other : pinWindows 64 (fun g i => decide (g = 0 ∧ i < 8)) 4194307 = .to [(0, 3)] := by decide +kernel

/-- Windows, 32 bits: `pin_thread( 40)` shifts by more than the width of the mask. -/
theorem pin_windows_shift (online : Nat → Nat → Bool) : pinWindows 32 online 40 = .ub := by simp [pinWindows]

example : pinWindows 64 (fun g i => decide (g = 1 ∧ i = 1)) 65 = .to [(1, 1)] ∧ pinLinux (fun c => decide (c < 4)) 3 = .to [(0, 3)] ∧
    pinLinux (fun _ => true) 1024 = .throws ∧ pinSolaris (fun c => decide (c < 4)) 3 = .to [(0, 3)] := by decide +kernel

end Verif.Props.NumaSys
