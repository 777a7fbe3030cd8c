import Verif.Base

/-!
# NUMA topology: parsing CPU lists, local and remote CPUs, choosing a victim

`src/numa/linux/topology.cpp`, `src/numa/algo/work_stealing.cpp`.

Simplifications: the file system is a function (contents of files, first matching directory entry); locales are the C
locale; `std::set< std::uint32_t>` is a strictly increasing list.
-/

namespace Verif.Numa

/-- `2^32`, the number of values of `std::uint32_t`. -/
def U32 : Nat := 4294967296

/-- `2^64`, the number of values of `unsigned long` (64-bit Linux). -/
def U64 : Nat := 18446744073709551616

/-- What a call may do. -/
inductive Res (α : Type)
  | ok (a : α)
  | throws             -- `std::invalid_argument` or `std::out_of_range` from `std::stoul`
  | diverges           -- endless loop
  deriving DecidableEq, Repr

/-- `al::split( v, s, al::is_any_of( "c"))` (no compression: adjacent separators give empty tokens). -/
def split (c : Char) : List Char → List (List Char)
  | [] => [[]]
  | x :: xs =>
    if x = c then [] :: split c xs
    else
      match split c xs with
      | [] => [[x]]
      | t :: ts => (x :: t) :: ts

/-- `std::isspace` in the C locale. -/
def isSpace (c : Char) : Bool := c = ' ' || c = '\t' || c = '\n' || c = '\r' || c = '\x0b' || c = '\x0c'

/-- `al::trim`. -/
def trim (s : List Char) : List Char := ((s.dropWhile isSpace).reverse.dropWhile isSpace).reverse

def isDigit (c : Char) : Bool := '0' ≤ c && c ≤ '9'

/-- The value of a string of digits. -/
def value (s : List Char) : Nat := s.foldl (fun a c => 10 * a + (c.toNat - 48)) 0

/-- `std::stoul( s)` (base 10; a sign `-` cannot occur here, because the strings were split at `-`). -/
def stoul (s : List Char) : Option Nat :=
  let s := s.dropWhile isSpace
  let s := match s with
    | '+' :: r => r
    | r => r
  let ds := s.takeWhile isDigit
  if ds = [] then none
  else if U64 ≤ value ds then none
  else some (value ds)

/-- `std::set::insert`. -/
def insert (x : Nat) : List Nat → List Nat
  | [] => [x]
  | y :: ys => if x < y then x :: y :: ys else if x = y then y :: ys else y :: insert x ys

/-- One turn of `for ( std::uint32_t i = first; i <= last; ++i) ids.insert( i);` (`topology.cpp:117-119`): `none` is the end. -/
def turn (last : Nat) (s : Nat × List Nat) : Option (Nat × List Nat) :=
  if s.1 ≤ last then some ((s.1 + 1) % U32, insert s.1 s.2) else none

/-- The whole loop. (`Numa.range_refines`: this is what iterating `turn` yields.) -/
def range (first last : Nat) (ids : List Nat) : Res (List Nat) :=
  if first ≤ last then
    if last + 1 = U32 then .diverges
    else .ok ((List.range' first (last + 1 - first)).foldl (fun a x => insert x a) ids)
  else .ok ids

/-- One entry of the list (`topology.cpp:105-120`). -/
def entry (e : List Char) (ids : List Nat) : Res (List Nat) :=
  let v2 := split '-' (trim e)
  match v2 with
  | [t] =>
    match stoul t with
    | none => .throws
    | some n => .ok (insert (n % U32) ids)
  | _ =>
    match stoul (v2.head?.getD []), stoul (v2.getLast?.getD []) with
    | some a, some b => range (a % U32) (b % U32) ids
    | _, _ => .throws

def entries : List (List Char) → List Nat → Res (List Nat)
  | [], ids => .ok ids
  | e :: es, ids =>
    match entry e ids with
    | .ok ids' => entries es ids'
    | r => r

/-- `ids_from_line` (`topology.cpp:101-123`). -/
def idsFromLine (content : List Char) : Res (List Nat) := entries (split ',' content) []

/-- `numa::node` (without `distance`, which nothing in the library uses). -/
structure Node where
  id : Nat
  cpus : List Nat
  deriving DecidableEq, Repr

/-- `map[node_id].logical_cpus.insert( cpu_id)`; the map is kept in increasing order of node ids. -/
def addTo (n c : Nat) : List Node → List Node
  | [] => [⟨n, [c]⟩]
  | m :: ms =>
    if n < m.id then ⟨n, [c]⟩ :: m :: ms
    else if n = m.id then ⟨m.id, insert c m.cpus⟩ :: ms
    else m :: addTo n c ms

/-- The loop over the CPUs (`topology.cpp:157-172`). `nodeOf c`: the first directory entry of CPU `c` that matches. -/
def assign (nodeOf : Nat → Option Nat) (cpus : List Nat) : List Node :=
  cpus.foldl (fun m c => match nodeOf c with | some n => addTo n c m | none => m) []

/-- `topology` (`topology.cpp:143-199`). -/
def topology (online : List Char) (nodeOf : Nat → Option Nat) : Res (List Node) :=
  match idsFromLine online with
  | .ok cpus =>
    if cpus = [] then .ok []
    else
      let m := assign nodeOf cpus
      if m = [] then .ok [⟨0, cpus⟩] else .ok m
  | .throws => .throws
  | .diverges => .diverges

/-- `get_local_cpus` (`src/numa/algo/work_stealing.cpp:30-38`). -/
def localCpus (node : Nat) : List Node → List Nat
  | [] => []
  | m :: ms => if node = m.id then m.cpus else localCpus node ms

/-- `get_remote_cpus` (`src/numa/algo/work_stealing.cpp:40-50`). -/
def remoteCpus (node : Nat) : List Node → List Nat
  | [] => []
  | m :: ms => if node ≠ m.id then m.cpus ++ remoteCpus node ms else remoteCpus node ms

/-! ## `pick_next` once the own queue was empty (`src/numa/algo/work_stealing.cpp:107-157`) -/

inductive Phase
  | loc (count : Nat)      -- first loop
  | rem (count : Nat)      -- second loop
  | found (cpu : Nat)      -- stolen from the queue of that CPU's scheduler
  | nothing                -- returns `nullptr`
  | ub                     -- index out of bounds
  deriving DecidableEq, Repr

structure Cfg where
  own : Nat                -- `cpu_id_`
  locals : List Nat        -- `local_cpus_`
  remotes : List Nat       -- `remote_cpus_`

/-- The random numbers that `std::uniform_int_distribution{ 0, size() - 1}` may yield (`std::uint32_t` arithmetic). -/
def admissible (size k : Nat) : Prop := k ≤ (size + U32 - 1) % U32

instance (size k : Nat) : Decidable (admissible size k) := inferInstanceAs (Decidable (_ ≤ _))

/-- One turn of the inner loop: the number `k` is drawn; `hit`: the scheduler it stands for has something to steal. -/
def draw (c : Cfg) (p : Phase) (k : Nat) (hit : Bool) : Phase :=
  match p with
  | .loc n =>
    match c.locals[k]? with
    | none => .ub
    | some cpu =>
      if cpu = c.own then .loc (n + 1)
      else if hit then .found cpu
      else if n + 1 < c.locals.length then .loc (n + 1)
      else if c.remotes = [] then .nothing
      else .rem 0
  | .rem n =>
    match c.remotes[k]? with
    | none => .ub
    | some cpu =>
      if hit then .found cpu
      else if n + 1 < c.remotes.length then .rem (n + 1)
      else .nothing
  | p => p

/-- A sequence of turns. -/
def search (c : Cfg) (p : Phase) (l : List (Nat × Bool)) : Phase := l.foldl (fun p x => draw c p x.1 x.2) p

/-- `pick_next` is still searching. -/
def Phase.busy : Phase → Bool
  | .loc _ | .rem _ => true
  | _ => false

/-- Every number drawn is admissible for the loop in which it is drawn. -/
def fair (c : Cfg) : Phase → List (Nat × Bool) → Prop
  | _, [] => True
  | p, x :: l =>
    (match p with
      | .loc _ => admissible c.locals.length x.1
      | .rem _ => admissible c.remotes.length x.1
      | _ => True) ∧ fair c (draw c p x.1 x.2) l

end Verif.Numa
