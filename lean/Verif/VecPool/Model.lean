/-!
# Model of the vector pool `src/sys/vec/pool.c`

The linked list of `VecPool_` nodes is a list with the *last* node first (the user's handle `p` is
the final element).  Arrays of vectors are identified by an allocation number; the heap records the
live allocations with their sizes.  A C pointer `pool->vecs + pool->used` is the pair (allocation,
offset).  `none` is an error return.
-/
namespace Verif.VecPool

/-- `struct VecPool_` (`include/slepc/private/vecimplslepc.h`); `vecs = none` is the NULL array. -/
structure Node where
  guess : Int
  n     : Int
  used  : Int
  vecs  : Option Nat

/-- Live arrays of vectors (`VecDuplicateVecs`/`VecDestroyVecs`): number and size. -/
structure Heap where
  next : Nat
  live : List (Nat × Int)

/-- `VecDuplicateVecs(v,m,&vecs)`; PETSc rejects `m <= 0`. -/
def Heap.alloc (h : Heap) (m : Int) : Option (Heap × Nat) :=
  if m ≤ 0 then none else some (⟨h.next + 1, (h.next, m) :: h.live⟩, h.next)

/-- `VecDestroyVecs`. -/
def Heap.free (h : Heap) (a : Nat) : Heap := { h with live := h.live.filter (fun x => x.1 != a) }

/-- An array handed out to the caller: allocation (`none` for NULL), offset and number of vectors. -/
structure Out where
  alloc : Option Nat
  off   : Int
  cnt   : Int
deriving DecidableEq

/-- `SlepcVecPoolCreate` (`src/sys/vec/pool.c:32-47`). -/
def create (init : Int) : Option Node :=
  if 0 ≤ init then some ⟨init, 0, 0, none⟩ else none

/-- `SlepcVecPoolGetVecs` (`src/sys/vec/pool.c:94-116`). -/
def getVecs (nodes : List Node) (h : Heap) (k : Int) : Option (List Node × Heap × Out) :=
  match nodes with
  | [] => none
  | pool :: prev =>
    if 0 ≤ k then
      if pool.n - pool.used < k then
        -- line 104: p->guess is the guess of the first node of the chain
        let guess := max ((nodes.getLast?.map Node.guess).getD 0) (pool.used + k)
        -- line 105
        let vh : Option Nat × Heap := match pool.vecs with
          | some a => if pool.used = 0 then (none, h.free a) else (some a, h)
          | none => (none, h)
        match vh.1 with
        | some a => do                                      -- lines 106-111
          let nd ← create (guess - pool.used)
          let (h', b) ← vh.2.alloc nd.guess
          some ({ nd with n := nd.guess, vecs := some b, used := k } ::
                { pool with guess := guess, vecs := some a } :: prev, h', ⟨some b, nd.used, k⟩)
        | none => do                                        -- lines 110-111
          let (h', b) ← vh.2.alloc guess
          some ({ pool with guess := guess, n := guess, vecs := some b, used := pool.used + k } :: prev,
                h', ⟨some b, pool.used, k⟩)
      else
        some ({ pool with used := pool.used + k } :: prev, h, ⟨pool.vecs, pool.used, k⟩)
    else none

/-- `SlepcVecPoolRestoreVecs` (`src/sys/vec/pool.c:133-148`). -/
def restoreVecs (nodes : List Node) (h : Heap) (k : Int) : Option (List Node × Heap) :=
  match nodes with
  | [] => none
  | [pool] =>
    if 0 ≤ pool.used - k then some ([{ pool with used := pool.used - k }], h) else none
  | pool :: pool0 :: prev =>
    if pool.used = 0 then
      -- lines 139-144: the last node is destroyed
      let h' := match pool.vecs with | some a => h.free a | none => h
      let used := pool0.used - k
      if 0 ≤ used then some ({ pool0 with guess := pool0.used + pool.guess, used := used } :: prev, h')
      else none
    else
      if 0 ≤ pool.used - k then some ({ pool with used := pool.used - k } :: pool0 :: prev, h) else none

/-- Pool, heap, and the arrays currently held by the caller (most recent first). -/
structure Sys where
  nodes : List Node
  heap  : Heap
  held  : List Out

/-- A caller action: request `k` vectors, or give back the most recently obtained array. -/
inductive Op
  | get (k : Int)
  | restore

def step (s : Sys) : Op → Option Sys
  | .get k => do
    let (nodes, heap, o) ← getVecs s.nodes s.heap k
    some ⟨nodes, heap, o :: s.held⟩
  | .restore =>
    match s.held with
    | [] => none
    | o :: held => do
      let (nodes, heap) ← restoreVecs s.nodes s.heap o.cnt
      some ⟨nodes, heap, held⟩

def run (s : Sys) : List Op → Option Sys
  | [] => some s
  | op :: ops => do let s' ← step s op; run s' ops

/-- A freshly created pool. -/
def start (init : Int) : Option Sys := do
  let nd ← create init
  some ⟨[nd], ⟨0, []⟩, []⟩

end Verif.VecPool
