/-! Model of the thread pool (yacl/utils/thread_pool.{h,cc}) as a transition system.

A step is one critical section or one notification. Tasks are numbers; what a task does is irrelevant to the pool, its
execution is the pair of steps "popped by a worker" / "finished". -/
namespace Yacl.ThreadPool

/-- Where a worker thread is in `WorkLoop` (thread_pool.cc L40-61). -/
inductive WState where
  | checking                    -- about to evaluate the wait predicate under the mutex
  | waiting                     -- blocked in `condition_.wait`
  | running (task : Nat)        -- executing `task()` outside the mutex
  | exited                      -- returned
deriving DecidableEq, Repr

/-- The destructor (thread_pool.cc L64-74): not called; `stop_` set; `notify_all` done (then it joins). -/
inductive Dtor where
  | none
  | stopped
  | notified
deriving DecidableEq, Repr

/-- thread_pool.h L61-70, plus history variables (`submitted`, `started`, `finished`). `pendOne` counts the `Submit` calls that
have pushed their task and not yet called `notify_one` (thread_pool.h L83-91). -/
structure Pool where
  queue : List Nat
  workers : List WState
  pendOne : Nat
  dtor : Dtor
  submitted : List Nat
  started : List Nat
  finished : List Nat

/-- thread_pool.cc L30-37: constructor with `n` workers. -/
def Pool.init (n : Nat) : Pool := ⟨[], List.replicate n .checking, 0, .none, [], [], []⟩

/-- `stop_`. -/
def Pool.stop (p : Pool) : Bool := p.dtor != .none

inductive Action where
  | submit (t : Nat)            -- Submit: critical section
  | notifyOne (w : Nat)         -- Submit: notify_one wakes worker w
  | notifyNobody                -- Submit: notify_one with nobody waiting
  | wake (w : Nat)              -- spurious wake-up
  | check (w : Nat)             -- worker evaluates the predicate and acts on it
  | finish (w : Nat)            -- worker's task ends
  | setStop                     -- destructor sets stop_
  | notifyAll                   -- destructor calls notify_all
deriving DecidableEq, Repr

/-- Woken by `notify_all`. -/
def woken : WState → WState
  | .waiting => .checking
  | s => s

/-- One step; `none`: not possible in this state. A refused `Submit` (exception) leaves the state unchanged. -/
def step (p : Pool) : Action → Option Pool
  | .submit t =>
    -- thread_pool.h L83-88: YACL_ENFORCE(!stop_)
    if p.stop then some p
    else some { p with queue := p.queue ++ [t], submitted := p.submitted ++ [t], pendOne := p.pendOne + 1 }
  | .notifyOne w =>
    if 0 < p.pendOne ∧ p.workers[w]? = some .waiting then
      some { p with pendOne := p.pendOne - 1, workers := p.workers.set w .checking }
    else none
  | .notifyNobody =>
    if 0 < p.pendOne ∧ WState.waiting ∉ p.workers then some { p with pendOne := p.pendOne - 1 } else none
  | .wake w =>
    if p.workers[w]? = some .waiting then some { p with workers := p.workers.set w .checking } else none
  | .check w =>
    -- thread_pool.cc L45-55
    if p.workers[w]? = some .checking then
      match p.queue with
      | [] => if p.stop then some { p with workers := p.workers.set w .exited }
              else some { p with workers := p.workers.set w .waiting }
      | t :: q => some { p with queue := q, workers := p.workers.set w (.running t), started := p.started ++ [t] }
    else none
  | .finish w =>
    -- thread_pool.cc L59
    match p.workers[w]? with
    | some (.running t) => some { p with workers := p.workers.set w .checking, finished := p.finished ++ [t] }
    | _ => none
  | .setStop => if p.dtor = .none then some { p with dtor := .stopped } else none
  | .notifyAll =>
    if p.dtor = .stopped then some { p with dtor := .notified, workers := p.workers.map woken } else none

/-- States reachable with `n` workers under any schedule of submitting threads, workers and the destroying thread. -/
inductive Reach (n : Nat) : Pool → Prop
  | init : Reach n (Pool.init n)
  | step (p p' : Pool) (a : Action) : Reach n p → step p a = some p' → Reach n p'

/-- thread_pool.cc L71-73: the destructor returns when every worker has been joined. -/
def Pool.joined (p : Pool) : Prop := p.dtor = .notified ∧ ∀ s ∈ p.workers, s = .exited

end Yacl.ThreadPool
