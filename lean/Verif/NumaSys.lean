import Verif.Numa

/-!
# The NUMA topology on every system, and pinning threads

`src/numa/{aix,freebsd,linux,solaris,windows}/topology.cpp` and `src/numa/{aix,freebsd,linux,solaris,windows}/pin_thread.cpp`.
The operating system is a parameter: what its calls report.

Not modelled: HP-UX (`src/numa/hpux/topology.cpp:42-43` uses the undeclared `id`, `:38-39` names that do not exist,
`src/numa/hpux/pin_thread.cpp:35-40` has one brace too many: none of it compiles); resources of the system that are leaked when
an exception is thrown; `src/numa/topology.cpp` and `src/numa/pin_thread.cpp`, which throw on systems that are not supported.
-/

namespace Verif.NumaSys

open Verif.Numa (U32)

/-- `numa::node` (`include/boost/fiber/numa/topology.hpp:26-31`). -/
structure Node where
  id : Nat
  cpus : List Nat        -- `logical_cpus`, in increasing order
  dist : List Nat
  deriving DecidableEq, Repr

/-- What a call of `topology()` may do. -/
inductive Out (α : Type)
  | ok (a : α)
  | throws
  | ub                   -- memory outside of a buffer is read
  deriving DecidableEq, Repr

def Out.map {α β : Type} (f : α → β) : Out α → Out β
  | .ok a => .ok (f a)
  | .throws => .throws
  | .ub => .ub

/-- "fake NUMA distance" (`aix/topology.cpp:69-75`, `freebsd/topology.cpp:43-49`, `solaris/topology.cpp:66-72`,
`windows/topology.cpp:119-125`; `n.distance` is empty before). -/
def fake (topo : List Node) : List Node :=
  topo.map fun n => { n with dist := (List.range topo.length).map fun i => if n.id = i then 10 else 20 }

/-- `for ( int i = 0; i < n; ++i) { if ( p( i) ) { set.insert( f( i) ); } }` -/
def collect (n : Nat) (p : Nat → Bool) (f : Nat → Nat) : List Nat :=
  (List.range n).foldl (fun s i => if p i then Numa.insert (f i) s else s) []

/-! ## AIX -/

/-- What AIX says about a resource domain: `getrad` (`rs_getrad() == 0`), the value of `R_NUMPROCS`, the value of `R_MAXPROCS`
and the answers of `RS_TESTRESOURCE`. -/
structure Rad where
  getrad : Bool
  numprocs : Nat
  maxprocs : Nat
  test : Nat → Bool

/-- One turn of the loop (`aix/topology.cpp:32-48`). -/
def aixNode (i : Nat) (r : Rad) : Option Node :=
  if r.getrad = false then none
  else if r.numprocs = 0 then none
  else some ⟨i, collect r.maxprocs r.test id, []⟩

/-- The loop from node `i` on. -/
def aixLoop : Nat → List Rad → List Node
  | _, [] => []
  | i, r :: rs =>
    match aixNode i r with
    | some n => n :: aixLoop (i + 1) rs
    | none => aixLoop (i + 1) rs

/-- `explore` (`aix/topology.cpp:23-51`): `rads` are the domains of the level, `none` if `rs_numrads` fails. -/
def aixExplore (rads : Option (List Rad)) : Out (List Node) :=
  match rads with
  | none => .throws
  | some rs => .ok (aixLoop 0 rs)

/-- `topology` (`aix/topology.cpp:60-77`): levels `0 … maxlevel`, `mcm` the value of `R_MCMSDL`, `rads` the domains of a level. -/
def aix (maxlevel mcm : Nat) (rads : Nat → Option (List Rad)) : Out (List Node) :=
  match (List.range (maxlevel + 1)).find? (fun i => decide (i = mcm)) with
  | some i => (aixExplore (rads i)).map fake
  | none => .ok (fake [])

/-! ## FreeBSD -/

/-- `topology` (`freebsd/topology.cpp:26-51`): `setSize` is `CPU_SETSIZE`, `mask` the answer of `cpuset_getaffinity`. -/
def freebsd (setSize : Nat) (mask : Option (Nat → Bool)) : Out (List Node) :=
  match mask with
  | none => .throws
  | some m => .ok (fake [⟨0, collect setSize m id, []⟩])

/-! ## Solaris -/

/-- A locality group: its id, the CPUs that belong to it directly, whether memory is installed in it directly, and its children. -/
inductive Lgrp
  | mk (id : Nat) (own : List Nat) (mem : Bool) (kids : List Lgrp)

mutual

/-- `lgrp_cpus( …, LGRP_CONTENT_HIERARCHY)`: the CPUs of a group and of all groups below it. -/
def Lgrp.cpus : Lgrp → List Nat
  | .mk _ own _ kids => own ++ Lgrp.cpusAll kids

def Lgrp.cpusAll : List Lgrp → List Nat
  | [] => []
  | g :: gs => g.cpus ++ Lgrp.cpusAll gs

end

mutual

/-- `explore` (`solaris/topology.cpp:22-46`). The calls `lgrp_cpus` and `lgrp_children` do not fail here. -/
def explore : Lgrp → List Node
  | .mk id own mem kids =>
    (if mem then [⟨id, (own ++ Lgrp.cpusAll kids).foldl (fun s c => Numa.insert c s) [], []⟩] else []) ++ exploreAll kids

/-- The loop over the children (`solaris/topology.cpp:43-45`). -/
def exploreAll : List Lgrp → List Node
  | [] => []
  | g :: gs => explore g ++ exploreAll gs

end

/-- `topology` (`solaris/topology.cpp:55-74`); `none`: `lgrp_init` fails. -/
def solaris (root : Option Lgrp) : Out (List Node) :=
  match root with
  | none => .throws
  | some g => .ok (fake (explore g))

/-! ## Windows -/

/-- A record of `GetLogicalProcessorInformationEx( RelationNumaNode)`: its length in bytes, the number of the node, the processor
group and the mask of the processors in the group. -/
structure Rec where
  size : Nat
  node : Nat
  group : Nat
  mask : Nat

/-- `compute_cpu_set` (`windows/topology.cpp:91-99`); `width` is the number of bits of `KAFFINITY`. -/
def cpuSet (width group mask : Nat) : List Nat :=
  collect width (fun i => mask.testBit i) (fun i => (64 * group + i) % U32)

/-- The body of the loop (`windows/topology.cpp:111-117`). -/
def winNode (width : Nat) (r : Rec) : Node :=
  ⟨r.node, (cpuSet width r.group r.mask).foldl (fun s c => Numa.insert c s) [], []⟩

/-- The loop over the records (`windows/topology.cpp:110-118`), `length` bytes before the end: after a record `operator++`
(`windows/topology.cpp:58-70`) subtracts its size and stops if nothing remains. -/
def walk (width : Nat) : List Rec → Nat → Out (List Node)
  | [], _ => .ub
  | r :: rs, length =>
    if (length + U32 - r.size) % U32 ≠ 0 then
      (walk width rs ((length + U32 - r.size) % U32)).map (winNode width r :: ·)
    else .ok [winNode width r]

/-- `topology` (`windows/topology.cpp:107-127`). The constructor of the iterator (`windows/topology.cpp:37-56`): nothing to report
(the call without a buffer succeeds), or a buffer with records of `length` bytes, or (`none`) a failure. -/
def windows (width : Nat) (info : Option (List Rec × Nat)) : Out (List Node) :=
  match info with
  | none => .throws
  | some (rs, length) =>
    if rs = [] then .ok (fake [])
    else (walk width rs length).map fake

/-! ## Linux -/

/-- The loop of `distance_from_line` (`linux/topology.cpp:129-133`); `BOOST_ASSERT` off. -/
def distEntries : List (List Char) → Option (List Nat)
  | [] => some []
  | e :: es =>
    match Numa.stoul (Numa.trim e), distEntries es with
    | some d, some ds => some (d % U32 :: ds)
    | _, _ => none

/-- `distance_from_line` (`linux/topology.cpp:125-135`); `none`: `std::stoul` throws. -/
def distFromLine (content : List Char) : Option (List Nat) := distEntries (Numa.split ' ' content)

/-- One turn of the last loop (`linux/topology.cpp:181-197`). `file i`: the first line of `node<i>/distance`, if the file exists. -/
def linuxNode (file : Nat → Option (List Char)) (n : Numa.Node) : Option Node :=
  match file n.id with
  | some line => (distFromLine line).map fun d => ⟨n.id, n.cpus, d⟩
  | none => some ⟨n.id, n.cpus, [10]⟩

/-- The last loop of `topology` (`linux/topology.cpp:181-198`), for the nodes that the first part (`Numa.topology`) found. -/
def linuxNodes (file : Nat → Option (List Char)) : List Numa.Node → Option (List Node)
  | [] => some []
  | n :: ns =>
    match linuxNode file n, linuxNodes file ns with
    | some m, some ms => some (m :: ms)
    | _, _ => none

/-! ## `pin_thread` -/

/-- What a call of `pin_thread` does to the thread. -/
inductive Pin
  | to (cpus : List (Nat × Nat))   -- it runs on these CPUs from now on: processor group (0 where there are none) and number
  | freed                          -- it may run everywhere
  | unchanged                      -- the call has returned, and nothing has changed
  | throws
  | ub
  deriving DecidableEq, Repr

/-- `pthread_setaffinity_np`: the CPUs of the set that exist; an error if there are none. -/
def setAffinity (online : Nat → Bool) (set : List Nat) : Pin :=
  if set.filter online = [] then .throws else .to ((set.filter online).map fun c => (0, c))

/-- `linux/pin_thread.cpp:30-40`. `CPU_SET` (glibc) does nothing if `cpuid` is not below `CPU_SETSIZE`, which is 1024. -/
def pinLinux (online : Nat → Bool) (cpuid : Nat) : Pin := setAffinity online (if cpuid < 1024 then [cpuid] else [])

/-- `freebsd/pin_thread.cpp:30-40`. `CPU_SET` writes outside of the set if `cpuid` is not below `CPU_SETSIZE`. -/
def pinFreebsd (setSize : Nat) (online : Nat → Bool) (cpuid : Nat) : Pin :=
  if cpuid < setSize then setAffinity online [cpuid] else .ub

/-- `static_cast< int >( cpuid)`. -/
def toInt (cpuid : Nat) : Int := if cpuid < 2147483648 then cpuid else (cpuid : Int) - U32

/-- `aix/pin_thread.cpp:31-37`: `bindprocessor` binds to a CPU that is there, unbinds if it is `PROCESSOR_CLASS_ANY` (-1), and
fails otherwise. `cpu_t` has 16 bits (`sys/processor.h`: `typedef short cpu_t`). -/
def toShort (cpuid : Nat) : Int := if cpuid % 65536 < 32768 then (cpuid % 65536 : Nat) else ((cpuid % 65536 : Nat) : Int) - 65536

def pinAix (online : Nat → Bool) (cpuid : Nat) : Pin :=
  if toShort cpuid = -1 then .freed
  else if 0 ≤ toShort cpuid ∧ online (toShort cpuid).toNat then .to [(0, (toShort cpuid).toNat)]
  else .throws

/-- `solaris/pin_thread.cpp:32-41`: `processor_bind` binds to a CPU that is there, unbinds for `PBIND_NONE` (-1), only queries for
`PBIND_QUERY` (-2), and fails otherwise. -/
def pinSolaris (online : Nat → Bool) (cpuid : Nat) : Pin :=
  if toInt cpuid = -1 then .freed
  else if toInt cpuid = -2 then .unchanged
  else if 0 ≤ toInt cpuid ∧ online (toInt cpuid).toNat then .to [(0, (toInt cpuid).toNat)]
  else .throws

/-- `windows/pin_thread.cpp:35-55`; `width` is the number of bits of `KAFFINITY`, `online g i`: group `g` has processor `i`.
`SetThreadGroupAffinity` fails if the mask has a bit of a processor that is not there. -/
def pinWindows (width : Nat) (online : Nat → Nat → Bool) (cpuid : Nat) : Pin :=
  if cpuid % 64 < width then
    if online (cpuid / 64 % 65536) (cpuid % 64) then .to [(cpuid / 64 % 65536, cpuid % 64)] else .throws
  else .ub

end Verif.NumaSys
