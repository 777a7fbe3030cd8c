import Verif.Base

/-!
# The control block on the fiber's stack

`make_worker_context_with_properties` (`include/boost/fiber/context.hpp:487-511`) and `make_dispatcher_context`
(`src/context.cpp:55-69`), which place the control block alike. Addresses are 64 bit, with the arithmetic of `uintptr_t`.
What Boost.Context does with the region it is handed is not modelled.
-/

namespace Verif.Layout

abbrev Addr := BitVec 64

/-- `sctx`: the stack `[sp - size, sp)` an allocator returned. -/
structure Stack where
  sp : Addr
  size : Addr
  deriving DecidableEq, Repr

/-- `storage` (`context.hpp:496-498`): where the control block of `n` bytes is placed. -/
def storage (s : Stack) (n : Addr) : Addr := (s.sp - n) &&& ~~~(0xff : Addr)

/-- `stack_bottom` (`context.hpp:499-500`). -/
def bottom (s : Stack) : Addr := s.sp - s.size

/-- `size` (`context.hpp:501`): of the region `[bottom, bottom + size)` handed to the fiber for execution; its upper end is `storage`
(`boost::context::preallocated{ storage, size, sctx }`, `:507`). -/
def execSize (s : Stack) (n : Addr) : Addr := storage s n - bottom s

end Verif.Layout
