import Verif.Numa

/-!
# NUMA: CPU lists (C56) and termination of `pick_next` (C49)
-/

namespace Verif.Numa

/-! ## What a CPU list denotes -/

/-- The decimal representation of a number. -/
def dec (n : Nat) : List Char :=
  if n < 10 then [Char.ofNat (48 + n)] else dec (n / 10) ++ [Char.ofNat (48 + n % 10)]

/-- An entry of a CPU list: `8` or `0-3`. -/
inductive Item
  | one (n : Nat)
  | range (a b : Nat)

def Item.text : Item → List Char
  | .one n => dec n
  | .range a b => dec a ++ '-' :: dec b

/-- The CPUs an entry stands for. -/
def Item.has : Item → Nat → Prop
  | .one n, x => x = n
  | .range a b, x => a ≤ x ∧ x ≤ b

/-- CPU numbers are 32-bit numbers; a range does not end with the greatest one. -/
def Item.valid : Item → Prop
  | .one n => n < U32
  | .range a b => a < U32 ∧ b + 1 < U32

/-- An entry between blanks. -/
structure Entry where
  before : List Char
  item : Item
  behind : List Char

def Entry.text (e : Entry) : List Char := e.before ++ e.item.text ++ e.behind

def Entry.blanks (e : Entry) : Prop := (∀ c ∈ e.before, isSpace c = true) ∧ ∀ c ∈ e.behind, isSpace c = true

/-- Entries separated by commas. -/
def line : List Entry → List Char
  | [] => []
  | [e] => e.text
  | e :: es => e.text ++ ',' :: line es

/-! ## Lemmas about strings -/

theorem char_digit (k : Nat) (h : k < 10) : isDigit (Char.ofNat (48 + k)) = true ∧ (Char.ofNat (48 + k)).toNat - 48 = k := by
  have : k = 0 ∨ k = 1 ∨ k = 2 ∨ k = 3 ∨ k = 4 ∨ k = 5 ∨ k = 6 ∨ k = 7 ∨ k = 8 ∨ k = 9 := by omega
  rcases this with rfl | rfl | rfl | rfl | rfl | rfl | rfl | rfl | rfl | rfl <;> decide

theorem dec_digits (n : Nat) : ∀ c ∈ dec n, isDigit c = true := by
  induction n using Nat.strongRecOn with
  | _ n ih =>
    rw [dec]
    split
    · intro c hc; simp only [List.mem_singleton] at hc; subst hc; exact (char_digit n (by assumption)).1
    · intro c hc
      rcases List.mem_append.1 hc with hc | hc
      · exact ih (n / 10) (by omega) c hc
      · simp only [List.mem_singleton] at hc; subst hc; exact (char_digit _ (by omega)).1

theorem dec_ne (n : Nat) : dec n ≠ [] := by
  rw [dec]; split <;> simp

theorem value_dec (n : Nat) : value (dec n) = n := by
  induction n using Nat.strongRecOn with
  | _ n ih =>
    rw [dec]
    split
    · simp only [value, List.foldl]; rw [(char_digit n (by assumption)).2]; omega
    · have := ih (n / 10) (by omega)
      simp only [value] at this
      rw [value, List.foldl_append, this]
      simp only [List.foldl]
      rw [(char_digit _ (by omega)).2]; omega

theorem digit_not {c d : Char} (h : isDigit c = true) (hd : isDigit d = false) : c ≠ d := by
  rintro rfl; rw [h] at hd; cases hd

theorem digit_space {c : Char} (h : isDigit c = true) : isSpace c = false := by
  have h1 := digit_not h (d := ' ') (by decide)
  have h2 := digit_not h (d := '\t') (by decide)
  have h3 := digit_not h (d := '\n') (by decide)
  have h4 := digit_not h (d := '\r') (by decide)
  have h5 := digit_not h (d := '\x0b') (by decide)
  have h6 := digit_not h (d := '\x0c') (by decide)
  simp [isSpace, *]

theorem space_not {c d : Char} (h : isSpace c = true) (hd : isSpace d = false) : c ≠ d := by
  rintro rfl; rw [h] at hd; cases hd

theorem split_none {c : Char} {t : List Char} (h : c ∉ t) : split c t = [t] := by
  induction t with
  | nil => rfl
  | cons x t ih =>
    have h1 : x ≠ c := fun e => h (e ▸ List.mem_cons_self ..)
    rw [split, if_neg h1, ih (fun e => h (List.mem_cons_of_mem _ e))]

theorem split_at {c : Char} {t r : List Char} (h : c ∉ t) : split c (t ++ c :: r) = t :: split c r := by
  induction t with
  | nil => simp [split]
  | cons x t ih =>
    have h1 : x ≠ c := fun e => h (e ▸ List.mem_cons_self ..)
    rw [List.cons_append, split, if_neg h1, ih (fun e => h (List.mem_cons_of_mem _ e))]

theorem dropWhile_all {p : Char → Bool} {l t : List Char} (hl : ∀ c ∈ l, p c = true) : (l ++ t).dropWhile p = t.dropWhile p := by
  induction l with
  | nil => rfl
  | cons x l ih => simp [hl x (List.mem_cons_self ..), ih (fun c hc => hl c (List.mem_cons_of_mem _ hc))]

theorem trim_pad {l t r : List Char} (hl : ∀ c ∈ l, isSpace c = true) (hr : ∀ c ∈ r, isSpace c = true) (hne : t ≠ [])
    (h1 : ∀ c ∈ t, isSpace c = false) : trim (l ++ t ++ r) = t := by
  rw [trim, List.append_assoc, dropWhile_all hl]
  have h2 : (t ++ r).dropWhile isSpace = t ++ r := by
    cases t with
    | nil => exact absurd rfl hne
    | cons x t => simp [h1 x (List.mem_cons_self ..)]
  rw [h2, List.reverse_append, dropWhile_all (by simpa using hr)]
  have h3 : t.reverse.dropWhile isSpace = t.reverse := by
    cases ht : t.reverse with
    | nil => rfl
    | cons x t' =>
      have : x ∈ t := by rw [← List.mem_reverse, ht]; exact List.mem_cons_self ..
      simp [h1 x this]
  rw [h3, List.reverse_reverse]

theorem stoul_dec {n : Nat} (h : n < U64) : stoul (dec n) = some n := by
  have hd := dec_digits n
  have hv := value_dec n
  have hne := dec_ne n
  generalize dec n = t at hd hv hne
  cases t with
  | nil => exact absurd rfl hne
  | cons x t =>
    have hx := hd x (List.mem_cons_self ..)
    have h1 : (x :: t).dropWhile isSpace = x :: t := by simp [digit_space hx]
    have h2 : x ≠ '+' := digit_not hx (by decide)
    have h3 : (x :: t).takeWhile isDigit = x :: t := by
      have h := List.takeWhile_append_of_pos (l₂ := []) hd
      simpa using h
    simp only [stoul, h1]
    split
    · rename_i r he; simp only [List.cons.injEq] at he; exact absurd he.1 h2
    · rw [h3, if_neg (by simp), if_neg (by rw [hv]; omega), hv]

theorem text_plain (i : Item) : (∀ c ∈ i.text, isSpace c = false ∧ c ≠ ',') ∧ i.text ≠ [] := by
  have h : ∀ n, ∀ c ∈ dec n, isSpace c = false ∧ c ≠ ',' := fun n c hc =>
    ⟨digit_space (dec_digits n c hc), digit_not (dec_digits n c hc) (by decide)⟩
  cases i with
  | one n => exact ⟨h n, dec_ne n⟩
  | range a b =>
    refine ⟨fun c hc => ?_, by simp [Item.text]⟩
    rcases List.mem_append.1 hc with hc | hc
    · exact h a c hc
    · rcases List.mem_cons.1 hc with rfl | hc
      · decide
      · exact h b c hc

theorem no_dash (n : Nat) : '-' ∉ dec n := fun h => absurd (dec_digits n _ h) (by decide)

/-! ## Sets -/

theorem mem_insert {x y : Nat} {l : List Nat} : y ∈ insert x l ↔ y = x ∨ y ∈ l := by
  induction l with
  | nil => simp [insert]
  | cons z l ih => simp only [insert]; split <;> (try split) <;> simp_all <;> grind

theorem sorted_insert {x : Nat} {l : List Nat} (h : l.Pairwise (· < ·)) : (insert x l).Pairwise (· < ·) := by
  induction l with
  | nil => simp [insert]
  | cons z l ih =>
    simp only [insert]
    have h1 := List.pairwise_cons.1 h
    split
    · refine List.pairwise_cons.2 ⟨?_, h⟩
      intro y hy
      rcases List.mem_cons.1 hy with rfl | hy
      · assumption
      · have := h1.1 y hy; omega
    · split
      · exact h
      · refine List.pairwise_cons.2 ⟨?_, ih h1.2⟩
        intro y hy
        rcases mem_insert.1 hy with rfl | hy
        · omega
        · exact h1.1 y hy

theorem foldl_insert {r l : List Nat} (h : l.Pairwise (· < ·)) :
    (r.foldl (fun a x => insert x a) l).Pairwise (· < ·) ∧ ∀ y, y ∈ r.foldl (fun a x => insert x a) l ↔ y ∈ r ∨ y ∈ l := by
  induction r generalizing l with
  | nil => exact ⟨h, by simp⟩
  | cons x r ih =>
    have := ih (sorted_insert (x := x) h)
    refine ⟨this.1, fun y => ?_⟩
    rw [List.foldl_cons, this.2 y, mem_insert, List.mem_cons]
    grind

/-! ## The `for` loop -/

/-- `n` turns of the loop. -/
def turns (last : Nat) : Nat → Nat × List Nat → Option (Nat × List Nat)
  | 0, s => some s
  | n + 1, s => (turn last s).bind (turns last n)

/-- The function `range` is the loop: if it yields `r`, the loop ends with `r` … -/
theorem range_ends {first last : Nat} {ids r : List Nat} (hl : last < U32) (h : range first last ids = .ok r) :
    ∃ n i, turns last n (first, ids) = some (i, r) ∧ turn last (i, r) = none := by
  rw [range] at h
  by_cases h1 : first ≤ last
  · rw [if_pos h1] at h
    by_cases h2 : last + 1 = U32
    · rw [if_pos h2] at h; cases h
    · rw [if_neg h2] at h
      have key : ∀ (k f : Nat) (ids : List Nat), f + k = last + 1 →
          turns last k (f, ids) = some (last + 1, (List.range' f k).foldl (fun a x => insert x a) ids) := by
        intro k
        induction k with
        | zero => intro f ids hf; simp only [Nat.add_zero] at hf; simp [turns, hf]
        | succ k ih =>
          intro f ids hf
          have h3 : turn last (f, ids) = some (f + 1, insert f ids) := by
            simp only [turn]; rw [if_pos (by omega), Nat.mod_eq_of_lt (by omega)]
          rw [turns, h3, Option.bind_some, ih (f + 1) _ (by omega), List.range'_succ, List.foldl_cons]
      have h4 := key (last + 1 - first) first ids (by omega)
      simp only [Res.ok.injEq] at h
      rw [h] at h4
      exact ⟨_, _, h4, by simp [turn]⟩
  · rw [if_neg h1] at h
    simp only [Res.ok.injEq] at h
    subst h
    exact ⟨0, first, rfl, by simp [turn, h1]⟩

/-- … and if it says so, the loop never ends. -/
theorem range_diverges {first last : Nat} {ids : List Nat} (h : range first last ids = .diverges) (n : Nat) :
    ∃ s, turns last n (first, ids) = some s := by
  rw [range] at h
  by_cases h1 : first ≤ last
  · rw [if_pos h1] at h
    by_cases h2 : last + 1 = U32
    · have key : ∀ (n : Nat) (s : Nat × List Nat), s.1 ≤ last → ∃ s', turns last n s = some s' := by
        intro n
        induction n with
        | zero => intro s _; exact ⟨s, rfl⟩
        | succ n ih =>
          intro s hs
          rw [turns]
          simp only [turn, if_pos hs, Option.bind_some]
          refine ih _ ?_
          have : (s.1 + 1) % U32 < U32 := Nat.mod_lt _ (by decide)
          simp only; omega
      exact key n _ h1
    · rw [if_neg h2] at h; cases h
  · rw [if_neg h1] at h; cases h

/-! ## Parsing is exact (C56) -/

theorem u32_u64 {n : Nat} (h : n < U32) : n < U64 := Nat.lt_trans h (by decide)

theorem entry_ok {e : Entry} {ids : List Nat} (hb : e.blanks) (hv : e.item.valid) (hs : ids.Pairwise (· < ·)) :
    ∃ r, entry e.text ids = .ok r ∧ r.Pairwise (· < ·) ∧ ∀ x, x ∈ r ↔ e.item.has x ∨ x ∈ ids := by
  have ht : trim e.text = e.item.text := trim_pad hb.1 hb.2 (text_plain e.item).2 (fun c hc => ((text_plain e.item).1 c hc).1)
  simp only [entry, ht]
  cases hi : e.item with
  | one n =>
    rw [hi] at hv
    simp only [Item.valid] at hv
    simp only [Item.text, split_none (no_dash n), stoul_dec (u32_u64 hv), Nat.mod_eq_of_lt hv]
    exact ⟨_, rfl, sorted_insert hs, fun x => by rw [mem_insert]; rfl⟩
  | range a b =>
    rw [hi] at hv
    simp only [Item.valid] at hv
    have hb' : b < U32 := by omega
    simp only [Item.text, split_at (no_dash a), split_none (no_dash b)]
    simp only [List.head?_cons, List.getLast?_cons_cons, List.getLast?_singleton, Option.getD_some, stoul_dec (u32_u64 hv.1), stoul_dec (u32_u64 hb'),
      Nat.mod_eq_of_lt hv.1, Nat.mod_eq_of_lt hb', range]
    by_cases hab : a ≤ b
    · rw [if_pos hab, if_neg (by omega)]
      have := foldl_insert (r := List.range' a (b + 1 - a)) hs
      refine ⟨_, rfl, this.1, fun x => ?_⟩
      rw [this.2 x, List.mem_range'_1]
      simp only [Item.has]
      constructor
      · rintro (h | h)
        · exact .inl (by omega)
        · exact .inr h
      · rintro (h | h)
        · exact .inl (by omega)
        · exact .inr h
    · rw [if_neg hab]
      refine ⟨_, rfl, hs, fun x => ?_⟩
      simp only [Item.has]
      constructor
      · exact .inr
      · rintro (h | h)
        · omega
        · exact h

theorem no_comma {e : Entry} (hb : e.blanks) : ',' ∉ e.text := by
  intro h
  simp only [Entry.text, List.mem_append] at h
  rcases h with (h | h) | h
  · exact space_not (hb.1 _ h) (d := ',') (by decide) rfl
  · exact ((text_plain _).1 _ h).2 rfl
  · exact space_not (hb.2 _ h) (d := ',') (by decide) rfl

theorem split_line {es : List Entry} (hne : es ≠ []) (hb : ∀ e ∈ es, e.blanks) : split ',' (line es) = es.map Entry.text := by
  induction es with
  | nil => exact absurd rfl hne
  | cons e es ih =>
    cases es with
    | nil => simpa [line] using split_none (no_comma (hb e (List.mem_cons_self ..)))
    | cons e' es =>
      rw [line, split_at (no_comma (hb e (List.mem_cons_self ..))), ih (by simp) (fun x hx => hb x (List.mem_cons_of_mem _ hx))]
      · rfl
      · simp

theorem entries_ok {es : List Entry} {ids : List Nat} (hb : ∀ e ∈ es, e.blanks) (hv : ∀ e ∈ es, e.item.valid) (hs : ids.Pairwise (· < ·)) :
    ∃ r, entries (es.map Entry.text) ids = .ok r ∧ r.Pairwise (· < ·) ∧ ∀ x, x ∈ r ↔ (∃ e ∈ es, e.item.has x) ∨ x ∈ ids := by
  induction es generalizing ids with
  | nil => exact ⟨ids, rfl, hs, by simp⟩
  | cons e es ih =>
    obtain ⟨r, h1, h2, h3⟩ := entry_ok (hb e (List.mem_cons_self ..)) (hv e (List.mem_cons_self ..)) hs
    obtain ⟨r', h4, h5, h6⟩ := ih (fun x hx => hb x (List.mem_cons_of_mem _ hx)) (fun x hx => hv x (List.mem_cons_of_mem _ hx)) h2
    refine ⟨r', by simp only [List.map, entries, h1, h4], h5, fun x => ?_⟩
    rw [h6 x, h3 x]
    simp only [List.mem_cons]
    grind

/-- Parsing a non-empty list of entries, with blanks around them, yields exactly the CPUs it denotes (and each once).
Missing: a range that ends with `2^32 - 1`, see `range_to_max`. -/
theorem parse_exact_partial {es : List Entry} (hne : es ≠ []) (hb : ∀ e ∈ es, e.blanks) (hv : ∀ e ∈ es, e.item.valid) :
    ∃ r, idsFromLine (line es) = .ok r ∧ r.Pairwise (· < ·) ∧ ∀ x, x ∈ r ↔ ∃ e ∈ es, e.item.has x := by
  obtain ⟨r, h1, h2, h3⟩ := entries_ok (ids := []) hb hv List.Pairwise.nil
  exact ⟨r, by rw [idsFromLine, split_line hne hb, h1], h2, fun x => by simp [h3 x]⟩

theorem parse_example : "0-3,8,10-11".toList = line [⟨[], .range 0 3, []⟩, ⟨[], .one 8, []⟩, ⟨[], .range 10 11, []⟩] ∧
    idsFromLine "0-3,8,10-11".toList = .ok [0, 1, 2, 3, 8, 10, 11] := by
  constructor
  · simp [line, Entry.text, Item.text, dec]
  · decide

example : (∀ e ∈ [Entry.mk [' '] (.range 0 3) [], ⟨[], .one 8, []⟩, ⟨['\t'], .range 10 11, [' ']⟩], e.blanks ∧ e.item.valid) := by
  simp [Entry.blanks, Item.valid, U32, isSpace]

/-- A range that ends with the greatest 32-bit number is not parsed: the loop never ends. -/
theorem range_to_max : idsFromLine "0-4294967295".toList = .diverges := by decide

/-- If the file cannot be read the line is empty; the parser then throws `std::invalid_argument`, so `topology()` does
not return the empty topology it means to return. -/
theorem empty_line_throws (nodeOf : Nat → Option Nat) : topology [] nodeOf = .throws := rfl

/-! ## Local and remote CPUs -/

theorem assign_mem {nodeOf : Nat → Option Nat} : ∀ (cpus : List Nat) (m : List Node),
    (m.map Node.id).Pairwise (· < ·) → (∀ n ∈ m, n.cpus ≠ []) →
    let m' := cpus.foldl (fun m c => match nodeOf c with | some n => addTo n c m | none => m) m
    (m'.map Node.id).Pairwise (· < ·) ∧ (∀ n ∈ m', n.cpus ≠ []) ∧
      ∀ i c, (∃ n ∈ m', n.id = i ∧ c ∈ n.cpus) ↔ (c ∈ cpus ∧ nodeOf c = some i) ∨ ∃ n ∈ m, n.id = i ∧ c ∈ n.cpus := by
  have add : ∀ (n c : Nat) (m : List Node), (m.map Node.id).Pairwise (· < ·) → (∀ x ∈ m, x.cpus ≠ []) →
      ((addTo n c m).map Node.id).Pairwise (· < ·) ∧ (∀ x ∈ addTo n c m, x.cpus ≠ []) ∧ (∀ i, i ∈ (addTo n c m).map Node.id → i = n ∨ i ∈ m.map Node.id) ∧
        ∀ i d, (∃ x ∈ addTo n c m, x.id = i ∧ d ∈ x.cpus) ↔ (d = c ∧ i = n) ∨ ∃ x ∈ m, x.id = i ∧ d ∈ x.cpus := by
    intro n c m
    induction m with
    | nil => intro _ _; simp [addTo]; grind
    | cons x m ih =>
      intro h1 h2
      have h3 := List.pairwise_cons.1 (by simpa using h1 : (x.id :: m.map Node.id).Pairwise (· < ·))
      obtain ⟨i1, i2, i3, i4⟩ := ih h3.2 (fun y hy => h2 y (List.mem_cons_of_mem _ hy))
      simp only [addTo]
      split
      · rename_i hlt
        refine ⟨?_, ?_, ?_, ?_⟩
        · simp only [List.map_cons, List.pairwise_cons]
          refine ⟨?_, h3⟩
          intro y hy
          rcases List.mem_cons.1 hy with rfl | hy
          · exact hlt
          · have := h3.1 y hy; omega
        · intro y hy; rcases List.mem_cons.1 hy with rfl | hy
          · simp
          · exact h2 y hy
        · simp
        · intro i d; simp; grind
      · split
        · rename_i hn
          subst hn
          refine ⟨by simpa using h3, ?_, by simp, ?_⟩
          · intro y hy; rcases List.mem_cons.1 hy with rfl | hy
            · intro h; have : c ∈ insert c x.cpus := mem_insert.2 (.inl rfl); simp only at h; rw [h] at this; cases this
            · exact h2 y (List.mem_cons_of_mem _ hy)
          · intro i d
            simp only [List.mem_cons, exists_eq_or_imp, mem_insert]
            grind
        · refine ⟨?_, ?_, ?_, ?_⟩
          · simp only [List.map_cons, List.pairwise_cons]
            refine ⟨?_, i1⟩
            intro y hy
            rcases i3 y hy with rfl | hy
            · omega
            · exact h3.1 y hy
          · intro y hy; rcases List.mem_cons.1 hy with rfl | hy
            · exact h2 y (List.mem_cons_self ..)
            · exact i2 y hy
          · intro i hi
            simp only [List.map_cons, List.mem_cons] at hi ⊢
            rcases hi with rfl | hi
            · exact .inr (.inl rfl)
            · rcases i3 i hi with h | h
              · exact .inl h
              · exact .inr (.inr h)
          · intro i d
            simp only [List.mem_cons, exists_eq_or_imp, i4]
            grind
  intro cpus
  induction cpus with
  | nil => intro m h1 h2; simp; exact ⟨h1, h2⟩
  | cons c cpus ih =>
    intro m h1 h2
    simp only [List.foldl_cons]
    cases hn : nodeOf c with
    | none =>
      obtain ⟨i1, i2, i3⟩ := ih m h1 h2
      refine ⟨i1, i2, fun i d => ?_⟩
      rw [i3]
      grind
    | some n =>
      obtain ⟨a1, a2, a3, a4⟩ := add n c m h1 h2
      obtain ⟨i1, i2, i3⟩ := ih (addTo n c m) a1 a2
      refine ⟨i1, i2, fun i d => ?_⟩
      rw [i3, a4]
      grind

/-- The topology consists of non-empty nodes with different ids; a CPU belongs to the node that the system says, or to
node 0 if the system does not know any node. -/
theorem topology_nodes {online : List Char} {nodeOf : Nat → Option Nat} {cpus : List Nat} {topo : List Node} (h : idsFromLine online = .ok cpus)
    (ht : topology online nodeOf = .ok topo) :
    (topo.map Node.id).Pairwise (· < ·) ∧ (∀ n ∈ topo, n.cpus ≠ []) ∧
    ((∃ c ∈ cpus, nodeOf c ≠ none) → ∀ i c, (∃ n ∈ topo, n.id = i ∧ c ∈ n.cpus) ↔ c ∈ cpus ∧ nodeOf c = some i) ∧
    ((∀ c ∈ cpus, nodeOf c = none) → ∀ i c, (∃ n ∈ topo, n.id = i ∧ c ∈ n.cpus) ↔ c ∈ cpus ∧ i = 0) := by
  have key := assign_mem (nodeOf := nodeOf) cpus [] (by simp) (by simp)
  simp only [List.not_mem_nil, false_and, exists_false, or_false] at key
  change ((assign nodeOf cpus).map Node.id).Pairwise (· < ·) ∧ (∀ n ∈ assign nodeOf cpus, n.cpus ≠ []) ∧
    ∀ i c, (∃ n ∈ assign nodeOf cpus, n.id = i ∧ c ∈ n.cpus) ↔ c ∈ cpus ∧ nodeOf c = some i at key
  obtain ⟨k1, k2, k3⟩ := key
  simp only [topology, h] at ht
  by_cases hc : cpus = []
  · rw [if_pos hc] at ht
    simp only [Res.ok.injEq] at ht
    subst ht hc
    simp
  · rw [if_neg hc] at ht
    by_cases hm : assign nodeOf cpus = []
    · rw [if_pos hm] at ht
      simp only [Res.ok.injEq] at ht
      subst ht
      have hnone : ∀ c ∈ cpus, nodeOf c = none := by
        intro c hcm
        cases hn : nodeOf c with
        | none => rfl
        | some i =>
          have := (k3 i c).2 ⟨hcm, hn⟩
          rw [hm] at this; simp at this
      refine ⟨by simp, by simp [hc], ?_, ?_⟩
      · rintro ⟨c, hc1, hc2⟩; exact absurd (hnone c hc1) hc2
      · intro _ i c; simp; grind
    · rw [if_neg hm] at ht
      simp only [Res.ok.injEq] at ht
      subst ht
      refine ⟨k1, k2, fun _ => k3, ?_⟩
      intro hnone
      exfalso
      apply hm
      cases ha : assign nodeOf cpus with
      | nil => rfl
      | cons n m =>
        have hn := k2 n (by simp [ha])
        obtain ⟨c, hcn⟩ := List.exists_mem_of_ne_nil _ hn
        have := (k3 n.id c).1 ⟨n, by simp [ha], rfl, hcn⟩
        rw [hnone c this.1] at this
        cases this.2

theorem local_mem {node c : Nat} {topo : List Node} (h : (topo.map Node.id).Pairwise (· < ·)) :
    c ∈ localCpus node topo ↔ ∃ n ∈ topo, n.id = node ∧ c ∈ n.cpus := by
  induction topo with
  | nil => simp [localCpus]
  | cons m ms ih =>
    have h3 := List.pairwise_cons.1 (by simpa using h : (m.id :: ms.map Node.id).Pairwise (· < ·))
    simp only [localCpus]
    split
    · rename_i hn
      constructor
      · intro hc; exact ⟨m, List.mem_cons_self .., hn.symm, hc⟩
      · rintro ⟨n, hn1, hn2, hn3⟩
        rcases List.mem_cons.1 hn1 with rfl | hn1
        · exact hn3
        · have := h3.1 n.id (List.mem_map_of_mem hn1); omega
    · rw [ih h3.2]
      simp only [List.mem_cons, exists_eq_or_imp]
      grind

theorem remote_mem {node c : Nat} {topo : List Node} : c ∈ remoteCpus node topo ↔ ∃ n ∈ topo, n.id ≠ node ∧ c ∈ n.cpus := by
  induction topo with
  | nil => simp [remoteCpus]
  | cons m ms ih =>
    simp only [remoteCpus]
    split <;> simp only [List.mem_append, ih, List.mem_cons, exists_eq_or_imp] <;> grind

/-- For every node, the local and the remote CPUs partition all CPUs that are online, if the system knows the node of
every CPU or of none. -/
theorem partition_partial {online : List Char} {nodeOf : Nat → Option Nat} {cpus : List Nat} {topo : List Node} (h : idsFromLine online = .ok cpus)
    (ht : topology online nodeOf = .ok topo) (hn : (∀ c ∈ cpus, nodeOf c ≠ none) ∨ ∀ c ∈ cpus, nodeOf c = none) (node c : Nat) :
    (c ∈ cpus ↔ c ∈ localCpus node topo ∨ c ∈ remoteCpus node topo) ∧ ¬ (c ∈ localCpus node topo ∧ c ∈ remoteCpus node topo) := by
  obtain ⟨h1, h2, h3, h4⟩ := topology_nodes h ht
  have key : ∃ f : Nat → Nat, ∀ i c, (∃ n ∈ topo, n.id = i ∧ c ∈ n.cpus) ↔ c ∈ cpus ∧ i = f c := by
    rcases hn with hn | hn
    · by_cases hc : ∃ c ∈ cpus, nodeOf c ≠ none
      · refine ⟨fun c => (nodeOf c).getD 0, fun i c => ?_⟩
        rw [h3 hc]
        constructor
        · rintro ⟨ha, hb⟩; exact ⟨ha, by simp [hb]⟩
        · rintro ⟨ha, rfl⟩
          refine ⟨ha, ?_⟩
          have := hn c ha
          cases hx : nodeOf c with
          | none => exact absurd hx this
          | some i => simp [hx]
      · refine ⟨fun _ => 0, h4 fun c hcm => ?_⟩
        exact Classical.byContradiction fun hx => hc ⟨c, hcm, hx⟩
    · exact ⟨fun _ => 0, h4 hn⟩
  obtain ⟨f, hf⟩ := key
  have hl := local_mem (node := node) (c := c) h1
  have hr := remote_mem (node := node) (c := c) (topo := topo)
  have hr' : c ∈ remoteCpus node topo ↔ c ∈ cpus ∧ f c ≠ node := by
    rw [hr]
    constructor
    · rintro ⟨n, ha, hb, hc⟩
      have := (hf n.id c).1 ⟨n, ha, rfl, hc⟩
      exact ⟨this.1, by omega⟩
    · rintro ⟨ha, hb⟩
      obtain ⟨n, h5, h6, h7⟩ := (hf (f c) c).2 ⟨ha, rfl⟩
      exact ⟨n, h5, by omega, h7⟩
  rw [hl, hr', hf]
  refine ⟨⟨fun hc => ?_, ?_⟩, ?_⟩
  · by_cases he : node = f c
    · exact .inl ⟨hc, he⟩
    · exact .inr ⟨hc, fun h => he h.symm⟩
  · rintro (h | h) <;> exact h.1
  · rintro ⟨ha, hb⟩; exact hb.2 ha.2.symm

/-- Otherwise a CPU without a node is in no list at all. -/
theorem cpu_lost : ∃ topo, topology "0-1".toList (fun c => if c = 0 then some 0 else none) = .ok topo ∧
    idsFromLine "0-1".toList = .ok [0, 1] ∧ 1 ∉ localCpus 0 topo ∧ 1 ∉ remoteCpus 0 topo :=
  ⟨[⟨0, [0]⟩], by decide, by decide, by decide, by decide⟩

-- `topology_nodes`, `partition_partial`: two nodes
example : idsFromLine "0-3,5".toList = .ok [0, 1, 2, 3, 5] ∧
    topology "0-3,5".toList (fun c => some (c % 2)) = .ok [⟨0, [0, 2]⟩, ⟨1, [1, 3, 5]⟩] ∧
    localCpus 1 [⟨0, [0, 2]⟩, ⟨1, [1, 3, 5]⟩] = [1, 3, 5] ∧ remoteCpus 1 [⟨0, [0, 2]⟩, ⟨1, [1, 3, 5]⟩] = [0, 2] := by decide

/-! ## `pick_next` (C49) -/

variable {c : Cfg} {p : Phase} {l : List (Nat × Bool)}

theorem search_idle (h : p.busy = false) : search c p l = p := by
  induction l generalizing p with
  | nil => rfl
  | cons x l ih =>
    have : draw c p x.1 x.2 = p := by cases p <;> simp_all [Phase.busy, draw]
    simp only [search, List.foldl_cons, this]
    exact ih h

/-- If the thread's CPU is the only one of its NUMA node, `pick_next` never returns, whatever the random numbers and
whatever the other nodes have to offer. -/
theorem alone_on_node (h : c.locals = [c.own]) (hf : fair c (.loc 0) l) : (search c (.loc 0) l).busy = true := by
  have key : ∀ (l : List (Nat × Bool)) (n : Nat), fair c (.loc n) l → (search c (.loc n) l).busy = true := by
    intro l
    induction l with
    | nil => intro n _; rfl
    | cons x l ih =>
      intro n hf
      obtain ⟨h1, h2⟩ := hf
      simp only [h, admissible, List.length_singleton] at h1
      have hx : x.1 = 0 := by have : (1 + U32 - 1) % U32 = 0 := by decide
                              omega
      have hd : draw c (.loc n) x.1 x.2 = .loc (n + 1) := by simp [draw, h, hx]
      rw [hd] at h2
      simp only [search, List.foldl_cons, hd]
      exact ih (n + 1) h2
  exact key l 0 hf

/-- If the node given to the constructor is not in the topology, the first random number is used as an index into an
empty vector. -/
theorem unknown_node {k : Nat} {hit : Bool} (h : c.locals = []) : search c (.loc 0) [(k, hit)] = .ub := by
  simp [search, draw, h]

theorem admissible_lt {n k : Nat} (h0 : 0 < n) (h1 : n ≤ U32) (h : admissible n k) : k < n := by
  have : (n + U32 - 1) % U32 = n - 1 := by
    rw [show n + U32 - 1 = (n - 1) + U32 by omega, Nat.add_mod_right, Nat.mod_eq_of_lt (by omega)]
  rw [admissible, this] at h
  omega

/-- Otherwise no index is out of bounds, … -/
theorem no_ub_partial (h0 : c.locals ≠ []) (h1 : c.locals.length ≤ U32) (h2 : c.remotes.length ≤ U32) (hf : fair c (.loc 0) l) :
    search c (.loc 0) l ≠ .ub := by
  have key : ∀ (l : List (Nat × Bool)) (p : Phase), p ≠ .ub → (∀ n, p = .rem n → c.remotes ≠ []) → fair c p l → search c p l ≠ .ub := by
    intro l
    induction l with
    | nil => intro p hp _ _; exact hp
    | cons x l ih =>
      intro p hp hr hf
      obtain ⟨h3, h4⟩ := hf
      simp only [search, List.foldl_cons]
      refine ih _ ?_ ?_ h4
      · cases p with
        | loc n =>
          have := admissible_lt (List.length_pos_iff.2 h0) h1 h3
          simp only [draw, List.getElem?_eq_getElem this]
          repeat' split
          all_goals simp
        | rem n =>
          have := admissible_lt (List.length_pos_iff.2 (hr n rfl)) h2 h3
          simp only [draw, List.getElem?_eq_getElem this]
          repeat' split
          all_goals simp
        | _ => simpa [draw] using hp
      · intro n hn
        cases p with
        | loc m => simp only [draw] at hn; grind
        | rem m => exact hr m rfl
        | _ => simp [draw] at hn
  exact key l _ (by simp) (by simp) hf

theorem rem_done {n : Nat} (h : c.remotes.length ≤ n + l.length) (hn : n < c.remotes.length) : (search c (.rem n) l).busy = false := by
  induction l generalizing n with
  | nil => simp only [List.length_nil] at h; omega
  | cons x l ih =>
    simp only [search, List.foldl_cons]
    have hstop : ∀ p : Phase, p.busy = false → (l.foldl (fun p x => draw c p x.1 x.2) p).busy = false := by
      intro p hp
      have := search_idle (c := c) (l := l) hp
      rw [search] at this
      rw [this]; exact hp
    cases hk : c.remotes[x.1]? with
    | none => exact hstop _ (by simp [draw, hk, Phase.busy])
    | some cpu =>
      cases hh : x.2 with
      | true => exact hstop _ (by simp [draw, hk, Phase.busy])
      | false =>
        by_cases hc : n + 1 < c.remotes.length
        · have : draw c (.rem n) x.1 false = .rem (n + 1) := by simp [draw, hk, hc]
          rw [this]
          exact ih (by simp only [List.length_cons] at h; omega) hc
        · exact hstop _ (by simp [draw, hk, hc, Phase.busy])

/-- … and `pick_next` has returned once, after as many random numbers as the node has CPUs, a number was drawn that
stands for another CPU, and as many more as there are remote CPUs. (So it fails to return only if all numbers from some
point on stand for the thread's own CPU; probability is not modelled.) -/
theorem numa_returns_partial {a b : List (Nat × Bool)} {x : Nat × Bool} {n : Nat} (hn : c.locals.length ≤ n + a.length + 1)
    (hx : c.locals[x.1]? ≠ some c.own) (hb : c.remotes.length ≤ b.length) : (search c (.loc n) (a ++ x :: b)).busy = false := by
  have hstop : ∀ (p : Phase) (l : List (Nat × Bool)), p.busy = false → (search c p l).busy = false := by
    intro p l hp; rw [search_idle hp]; exact hp
  induction a generalizing n with
  | nil =>
    have hc : ¬ n + 1 < c.locals.length := by simp only [List.length_nil] at hn; omega
    change (search c (draw c (.loc n) x.1 x.2) b).busy = false
    cases hk : c.locals[x.1]? with
    | none => exact hstop _ _ (by simp [draw, hk, Phase.busy])
    | some cpu =>
      have hne : cpu ≠ c.own := fun h => hx (by rw [hk, h])
      cases hh : x.2 with
      | true => exact hstop _ _ (by simp [draw, hk, hne, Phase.busy])
      | false =>
        by_cases hr : c.remotes = []
        · exact hstop _ _ (by simp [draw, hk, hne, hc, hr, Phase.busy])
        · have : draw c (.loc n) x.1 false = .rem 0 := by simp [draw, hk, hne, hc, hr]
          rw [this]
          exact rem_done (by omega) (List.length_pos_iff.2 hr)
  | cons y a ih =>
    change (search c (draw c (.loc n) y.1 y.2) (a ++ x :: b)).busy = false
    have hnext := ih (n := n + 1) (by simp only [List.length_cons] at hn; omega)
    cases hk : c.locals[y.1]? with
    | none => exact hstop _ _ (by simp [draw, hk, Phase.busy])
    | some cpu =>
      by_cases hown : cpu = c.own
      · have : draw c (.loc n) y.1 y.2 = .loc (n + 1) := by simp [draw, hk, hown]
        rw [this]; exact hnext
      · cases hh : y.2 with
        | true => exact hstop _ _ (by simp [draw, hk, hown, Phase.busy])
        | false =>
          by_cases hc : n + 1 < c.locals.length
          · have : draw c (.loc n) y.1 false = .loc (n + 1) := by simp [draw, hk, hown, hc]
            rw [this]; exact hnext
          · by_cases hr : c.remotes = []
            · exact hstop _ _ (by simp [draw, hk, hown, hc, hr, Phase.busy])
            · have : draw c (.loc n) y.1 false = .rem 0 := by simp [draw, hk, hown, hc, hr]
              rw [this]
              refine rem_done ?_ (List.length_pos_iff.2 hr)
              simp only [List.length_append, List.length_cons]; omega

/-- What was stolen comes from another CPU of the topology. -/
theorem found_elsewhere {cpu : Nat} (hr : c.own ∉ c.remotes) (h : search c (.loc 0) l = .found cpu) :
    cpu ∈ c.locals ++ c.remotes ∧ cpu ≠ c.own := by
  have key : ∀ (l : List (Nat × Bool)) (p : Phase), (∀ d, p = .found d → d ∈ c.locals ++ c.remotes ∧ d ≠ c.own) →
      search c p l = .found cpu → cpu ∈ c.locals ++ c.remotes ∧ cpu ≠ c.own := by
    intro l
    induction l with
    | nil => intro p hp hs; exact hp cpu hs
    | cons x l ih =>
      intro p hp hs
      refine ih (draw c p x.1 x.2) ?_ hs
      intro d hd
      cases p with
      | loc n =>
        cases hk : c.locals[x.1]? with
        | none => simp [draw, hk] at hd
        | some e =>
          have := List.mem_of_getElem? hk
          simp only [draw, hk] at hd
          grind
      | rem n =>
        cases hk : c.remotes[x.1]? with
        | none => simp [draw, hk] at hd
        | some e =>
          have := List.mem_of_getElem? hk
          simp only [draw, hk] at hd
          grind
      | _ => simp_all [draw]
  exact key l _ (by simp) h

-- `alone_on_node`: one CPU per node
example : fair ⟨0, [0], [1]⟩ (.loc 0) [(0, true), (0, true), (0, true)] := by
  simp [fair, draw, admissible]

-- `numa_returns_partial`, `no_ub_partial`: CPUs 0 and 1 on node 0, CPUs 2 and 3 on node 1; CPU 0 finds nothing on its node and steals from CPU 3
example : search ⟨0, [0, 1], [2, 3]⟩ (.loc 0) [(0, false), (1, false), (0, false), (1, true)] = .found 3 := by decide

example : (⟨0, [0, 1], [2, 3]⟩ : Cfg).locals.length ≤ 0 + [((0 : Nat), false)].length + 1 ∧ (⟨0, [0, 1], [2, 3]⟩ : Cfg).locals[1]? ≠ some 0 ∧
    (0 : Nat) ∉ (⟨0, [0, 1], [2, 3]⟩ : Cfg).remotes := by decide

end Verif.Numa
