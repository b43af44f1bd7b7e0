/-! Model of the parallel loops (yacl/utils/parallel.{h,cc}).

`int64_t` values are `Int`s; conversions from unsigned arithmetic wrap (`toI64`). The number of threads is a parameter: the
value returned by `get_num_threads()`. -/
namespace Yacl.Parallel

/-- Conversion of a 64-bit unsigned result to `int64_t`. -/
def toI64 (x : Int) : Int := (x + 2 ^ 63) % 2 ^ 64 - 2 ^ 63

/-- parallel.h L22 `divup`. -/
def divup (x y : Int) : Int := (x + y - 1) / y

/-- Abnormal ends. -/
inductive Err where
  | enforce
  | ub
deriving DecidableEq, Repr

/-- parallel.h L41-53 `calc_num_tasks_and_chunk_size` (number of tasks, chunk size); dividing by 0 threads is undefined. -/
def tasksAndChunk (b e grain : Int) (threads : Nat) : Except Err (Nat × Int) :=
  if e - b < grain then .ok (1, max 0 (e - b))
  else if threads = 0 then .error .ub
  else
    let chunk := max grain (divup (e - b) threads)
    .ok ((divup (e - b) chunk).toNat, chunk)

/-- parallel.cc L114-124: what task `id` does; `none`: nothing. -/
def taskRange (b e chunk : Int) (id : Nat) : Option (Int × Int) :=
  let s := toI64 (b + id * chunk)
  if s < e then some (s, min e (toI64 (chunk + s))) else none

/-- parallel.cc L104-153 `_parallel_run`: the calls made to `f`, when the tasks are executed in the order `order` (a
permutation of `0 … num_tasks-1`; the tasks run on different threads). -/
def run (b e chunk : Int) (order : List Nat) : List (Int × Int × Nat) :=
  order.filterMap fun id => (taskRange b e chunk id).map fun (s, t) => (s, t, id)

/-- parallel.cc L133-152: which exception leaves `_parallel_run`: task 0 runs first on this thread, then the futures are
waited for in order, the last exception wins. `thrown id` is what task `id` throws. -/
def rethrown {E : Type} (thrown : Nat → Option E) : List Nat → Option E → Option E
  | [], eptr => eptr
  | id :: ids, eptr => rethrown thrown ids (match thrown id with | some e => some e | none => eptr)

/-- parallel.h L79-93 `parallel_for`: the sequence of calls to the body. -/
def parallelFor (b e grain : Int) (threads : Nat) (inRegion : Bool) (order : Nat → List Nat) :
    Except Err (List (Int × Int)) :=
  if ¬ grain > 0 then .error .enforce
  else if b ≥ e then .ok []
  else if e - b < grain ∨ inRegion = true then .ok [(b, e)]
  else match tasksAndChunk b e grain threads with
    | .error x => .error x
    | .ok (tasks, chunk) => .ok ((run b e chunk (order tasks)).map fun (s, t, _) => (s, t))

/-- `results[task_id] = reduce_f(fstart, fend)` for the calls made, in order; writing outside is undefined. -/
def writeAll {α : Type} (red : Int → Int → α) : List (Int × Int × Nat) → List α → Option (List α)
  | [], r => some r
  | (s, t, id) :: cs, r => if id < r.length then writeAll red cs (r.set id (red s t)) else none

/-- parallel.h L133-158 `parallel_reduce`. `get_num_threads()` is called twice (once here, once in `_parallel_run`), giving
`threads` and `threads'`. `dflt` is the value-initialised scalar. -/
def parallelReduce {α : Type} (red : Int → Int → α) (comb : α → α → α) (dflt : α) (b e grain : Int) (threads threads' : Nat)
    (inRegion : Bool) (order : Nat → List Nat) : Except Err α :=
  if ¬ grain > 0 then .error .enforce
  else if ¬ b < e then .error .enforce
  else if e - b < grain ∨ inRegion = true then .ok (red b e)
  else match tasksAndChunk b e grain threads with
    | .error x => .error x
    | .ok (tasks, _) =>
      match tasksAndChunk b e grain threads' with
      | .error x => .error x
      | .ok (tasks', chunk) =>
        match writeAll red (run b e chunk (order tasks')) (List.replicate tasks dflt) with
        | none => .error .ub
        | some [] => .error .ub
        | some (r :: rs) => .ok (rs.foldl comb r)

end Yacl.Parallel
