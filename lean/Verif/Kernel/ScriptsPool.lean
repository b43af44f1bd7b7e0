import Verif.Kernel.Scripts
import Mathlib.Order.WellFounded
import Mathlib.Data.Nat.Find

/-! C145: `SVoleKernel::eval_multithread`.  Each party agrees on a seed over the given link, spawns one link per task and hands the
tasks to a thread pool.  Whatever the two schedulers do, and however many workers each side really has, the evaluation ends. -/

namespace Yacl.Scripts

/-! ### Model -/

/-- Both parties during a multi-threaded evaluation: the given link, one link per task (`Spawn`, independent channels), and how many
tasks the pool of each party has started.  The pool starts tasks in the order of submission (C24). -/
structure Pool where
  main : Net
  nets : List Net
  startedP : ℕ
  startedQ : ℕ

/-- Tasks a pool is running: started and with link calls left to make.  Simplification: a task that has made its last link call counts
as returned. -/
def busyP (s : Pool) : ℕ := ((s.nets.take s.startedP).filter fun n => !n.p.isEmpty).length
def busyQ (s : Pool) : ℕ := ((s.nets.take s.startedQ).filter fun n => !n.q.isEmpty).length

/-- Tasks the pool of a party has started. -/
def started (s : Pool) (who : Bool) : ℕ := if who then s.startedP else s.startedQ

/-- What can happen next. -/
inductive Move where
  /-- a party makes its next call on the given link -/
  | main (who : Bool)
  /-- the pool of a party starts its next task -/
  | start (who : Bool)
  /-- the thread of a party that runs task `i` makes its next call -/
  | task (who : Bool) (i : ℕ)

/-- svole_kernel.cc L74-107 (sender, `P`), L113-146 (receiver, `Q`); thread_pool.cc: a free worker takes the first task waiting.
`wP`, `wQ` are the numbers of workers.  The tasks are submitted after the seed is exchanged (L91, L130). -/
def move (wP wQ : ℕ) (s : Pool) : Move → Res Pool
  | .main who =>
    match step who s.main with
    | .ok t => .ok { s with main := t }
    | .waiting => .waiting
    | .finished => .finished
    | .mismatch => .mismatch
  | .start true =>
    if s.main.p = [] ∧ s.startedP < s.nets.length ∧ busyP s < wP then .ok { s with startedP := s.startedP + 1 } else .waiting
  | .start false =>
    if s.main.q = [] ∧ s.startedQ < s.nets.length ∧ busyQ s < wQ then .ok { s with startedQ := s.startedQ + 1 } else .waiting
  | .task who i =>
    if i < started s who then
      match s.nets[i]? with
      | none => .finished
      | some n =>
        match step who n with
        | .ok t => .ok { s with nets := s.nets.set i t }
        | .waiting => .waiting
        | .finished => .finished
        | .mismatch => .mismatch
    else .waiting

/-- svole_kernel.cc L82-89, L121-128: how many outputs each task makes. -/
def chunks (threads n : ℕ) : List ℕ := List.replicate (threads - 1) (n / threads) ++ [n - n / threads * (threads - 1)]

/-- `eval_multithread` of both parties at the start; the kernel is initialised and not malicious (L46, L51), `a` has 8-byte and `b`, `c`
16-byte elements. -/
def multithread (noise gap threads n : ℕ) : Pool where
  main := ⟨seedSend, seedRecv, [], []⟩
  nets := (chunks threads n).map fun m =>
    ⟨silentSend true true false 8 16 noise gap m, silentRecv true true false 8 16 noise gap m, [], []⟩
  startedP := 0
  startedQ := 0

/-! ### Specification -/

/-- The states a sequence of `k` successful moves leads to. -/
inductive PoolRun (wP wQ : ℕ) : ℕ → Pool → Pool → Prop
  | nil (s) : PoolRun wP wQ 0 s s
  | cons {k s t u} (m : Move) : move wP wQ s m = .ok t → PoolRun wP wQ k t u → PoolRun wP wQ (k + 1) s u

/-- Every task of both parties has returned and no message is left on any link. -/
def AllDone (s : Pool) : Prop :=
  Done s.main ∧ (∀ n ∈ s.nets, Done n) ∧ s.startedP = s.nets.length ∧ s.startedQ = s.nets.length

/-! ### Proof -/

structure Inv (s : Pool) : Prop where
  main : Completes s.main
  nets : ∀ n ∈ s.nets, Completes n
  leP : s.startedP ≤ s.nets.length
  leQ : s.startedQ ≤ s.nets.length

/-- Moves still to come. -/
def left (s : Pool) : ℕ :=
  s.main.p.length + s.main.q.length + (s.nets.map fun n => n.p.length + n.q.length).sum +
    (s.nets.length - s.startedP) + (s.nets.length - s.startedQ)

theorem move_main {wP wQ s who t} : move wP wQ s (.main who) = .ok t ↔ ∃ m, step who s.main = .ok m ∧ t = { s with main := m } := by
  simp only [move]
  constructor
  · intro h; split at h <;> simp_all
  · rintro ⟨m, h, rfl⟩; simp [h]

theorem move_task {wP wQ s who i t} : move wP wQ s (.task who i) = .ok t ↔
    i < started s who ∧ ∃ n m, s.nets[i]? = some n ∧ step who n = .ok m ∧
      t = { s with nets := s.nets.set i m } := by
  simp only [move]
  constructor
  · intro h
    split at h
    · next hi =>
      refine ⟨hi, ?_⟩
      split at h
      · exact absurd h (by simp)
      · next n hn => split at h <;> simp_all
    · exact absurd h (by simp)
  · rintro ⟨hi, n, m, h1, h2, rfl⟩
    simp [hi, h1, h2]

theorem sum_set (l : List Net) (i : ℕ) (n m : Net) (hn : l[i]? = some n)
    (h : n.p.length + n.q.length = m.p.length + m.q.length + 1) :
    (l.map fun n => n.p.length + n.q.length).sum = ((l.set i m).map fun n => n.p.length + n.q.length).sum + 1 := by
  induction l generalizing i with
  | nil => simp at hn
  | cons x l ih =>
    cases i with
    | zero => simp at hn; subst hn; simp; omega
    | succ i => simp at hn; simp [ih i hn]; omega

theorem inv_move {wP wQ s m t} (h : Inv s) (hm : move wP wQ s m = .ok t) : Inv t ∧ left s = left t + 1 := by
  obtain ⟨h1, h2, h3, h4⟩ := h
  match m, hm with
  | .main who, hm =>
    obtain ⟨x, hx, rfl⟩ := move_main.1 hm
    refine ⟨⟨completes_step who h1 hx, h2, h3, h4⟩, ?_⟩
    have := step_length hx
    simp only [left]; omega
  | .start true, hm =>
    simp only [move] at hm
    split at hm
    · next hc =>
      cases hm
      refine ⟨⟨h1, h2, by simp only; omega, h4⟩, ?_⟩
      simp only [left]; omega
    · exact absurd hm (by simp)
  | .start false, hm =>
    simp only [move] at hm
    split at hm
    · next hc =>
      cases hm
      refine ⟨⟨h1, h2, h3, by simp only; omega⟩, ?_⟩
      simp only [left]; omega
    · exact absurd hm (by simp)
  | .task who i, hm =>
    obtain ⟨hi, n, x, hn, hx, rfl⟩ := move_task.1 hm
    have hc : Completes x := completes_step who (h2 n (List.mem_of_getElem? hn)) hx
    refine ⟨⟨h1, ?_, by simpa using h3, by simpa using h4⟩, ?_⟩
    · intro y hy
      rcases List.mem_or_eq_of_mem_set hy with hy | rfl
      · exact h2 y hy
      · exact hc
    · have := sum_set s.nets i n x hn (step_length hx)
      simp only [left, List.length_set]; omega

theorem inv_run {wP wQ k s t} (h : Inv s) (hr : PoolRun wP wQ k s t) : Inv t ∧ left s = left t + k := by
  induction hr with
  | nil => exact ⟨h, rfl⟩
  | cons m hm _ ih =>
    obtain ⟨h1, h2⟩ := inv_move h hm
    obtain ⟨h3, h4⟩ := ih h1
    exact ⟨h3, by omega⟩

theorem filter_done (l : List Net) (k : ℕ) (f : Net → Bool) (h : ∀ j n, j < k → l[j]? = some n → f n = false) :
    ((l.take k).filter f).length = 0 := by
  rw [List.length_eq_zero_iff, List.filter_eq_nil_iff]
  intro n hn
  obtain ⟨j, hj, rfl⟩ := List.getElem_of_mem hn
  have hj' := hj
  rw [List.length_take] at hj'
  have := h j (l.take k)[j] (by omega) (by rw [List.getElem_take]; exact List.getElem?_eq_getElem (by omega))
  rw [this]
  simp

theorem progress {wP wQ s} (hP : 0 < wP) (hQ : 0 < wQ) (h : Inv s) : AllDone s ∨ ∃ m t, move wP wQ s m = .ok t := by
  by_cases hmain : Done s.main
  · by_cases hall : ∀ n ∈ s.nets, Done n
    · by_cases hp : s.startedP = s.nets.length
      · by_cases hq : s.startedQ = s.nets.length
        · exact .inl ⟨hmain, hall, hp, hq⟩
        · refine .inr ⟨.start false, { s with startedQ := s.startedQ + 1 }, ?_⟩
          have hb : busyQ s = 0 := filter_done _ _ _ fun j n _ hn => by simp [(hall n (List.mem_of_getElem? hn)).2.1]
          have := h.leQ
          simp only [move, hmain.2.1, hb, true_and]
          rw [if_pos ⟨by omega, hQ⟩]
      · refine .inr ⟨.start true, { s with startedP := s.startedP + 1 }, ?_⟩
        have hb : busyP s = 0 := filter_done _ _ _ fun j n _ hn => by simp [(hall n (List.mem_of_getElem? hn)).1]
        have := h.leP
        simp only [move, hmain.1, hb, true_and]
        rw [if_pos ⟨by omega, hP⟩]
    · -- the first task that is not done
      have hex : ∃ i : ℕ, ∃ n, s.nets[i]? = some n ∧ ¬ Done n := by
        push Not at hall
        obtain ⟨n, hn, hd⟩ := hall
        obtain ⟨i, hi, rfl⟩ := List.getElem_of_mem hn
        exact ⟨i, _, List.getElem?_eq_getElem hi, hd⟩
      classical
      obtain ⟨n, hn, hd⟩ := Nat.find_spec hex
      have hmin : ∀ j x, j < Nat.find hex → s.nets[j]? = some x → Done x := by
        intro j x hj hx
        by_contra hc
        exact Nat.find_min hex hj ⟨x, hx, hc⟩
      have hlt : Nat.find hex < s.nets.length := (List.getElem?_eq_some_iff.1 hn).1
      obtain ⟨i, hi⟩ : ∃ i, i = Nat.find hex := ⟨_, rfl⟩
      rw [← hi] at hn hmin hlt
      rcases Nat.lt_or_ge i s.startedP with hp | hp
      · rcases Nat.lt_or_ge i s.startedQ with hq | hq
        · rcases completes_progress (h.nets n (List.mem_of_getElem? hn)) with hc | ⟨who, x, hx⟩
          · exact absurd hc hd
          · refine .inr ⟨.task who i, _, move_task.2 ⟨?_, n, x, hn, hx, rfl⟩⟩
            cases who <;> simpa [started]
        · refine .inr ⟨.start false, { s with startedQ := s.startedQ + 1 }, ?_⟩
          have hb : busyQ s = 0 := filter_done _ _ _ fun j x hj hx => by simp [(hmin j x (by omega) hx).2.1]
          simp only [move, hmain.2.1, hb, true_and]
          rw [if_pos ⟨by omega, hQ⟩]
      · refine .inr ⟨.start true, { s with startedP := s.startedP + 1 }, ?_⟩
        have hb : busyP s = 0 := filter_done _ _ _ fun j x hj hx => by simp [(hmin j x (by omega) hx).1]
        simp only [move, hmain.1, hb, true_and]
        rw [if_pos ⟨by omega, hP⟩]
  · rcases completes_progress h.main with hc | ⟨who, x, hx⟩
    · exact absurd hc hmain
    · exact .inr ⟨.main who, _, move_main.2 ⟨x, hx, rfl⟩⟩

theorem inv_start (noise gap threads n : ℕ) : Inv (multithread noise gap threads n) where
  main := (safe_iff _ _).1 (safe_of_flip rfl)
  nets := by
    intro x hx
    simp only [multithread, List.mem_map] at hx
    obtain ⟨m, _, rfl⟩ := hx
    exact (safe_iff _ _).1 (call_safe (.silent true true false 8 16 noise gap m))
  leP := Nat.zero_le _
  leQ := Nat.zero_le _

/-! ### The property -/

/-- C145.  Multi-threaded evaluation, any number of tasks and outputs, any positive numbers of workers on the two sides: under every
schedule something can happen until all tasks of both parties have returned and every link is empty. -/
theorem C145_no_deadlock (wP wQ noise gap threads n k : ℕ) (hP : 0 < wP) (hQ : 0 < wQ) (s : Pool)
    (hr : PoolRun wP wQ k (multithread noise gap threads n) s) : AllDone s ∨ ∃ m t, move wP wQ s m = .ok t :=
  progress hP hQ (inv_run (inv_start noise gap threads n) hr).1

/-- C145.  It cannot go on for ever: no schedule is longer than `left` of the start, a number that does not depend on the schedule. -/
theorem C145_ends (wP wQ noise gap threads n k : ℕ) (s : Pool)
    (hr : PoolRun wP wQ k (multithread noise gap threads n) s) : k ≤ left (multithread noise gap threads n) := by
  have := (inv_run (inv_start noise gap threads n) hr).2
  omega

/-- C145.  No thread of either party ever reads a wrong message. -/
theorem C145_no_mismatch (wP wQ noise gap threads n k : ℕ) (s : Pool)
    (hr : PoolRun wP wQ k (multithread noise gap threads n) s) (m : Move) : move wP wQ s m ≠ .mismatch := by
  obtain ⟨hi, -⟩ := inv_run (inv_start noise gap threads n) hr
  match m with
  | .main who =>
    have := completes_no_mismatch hi.main who
    simp only [move]; split <;> simp_all
  | .start true => simp only [move]; split <;> simp
  | .start false => simp only [move]; split <;> simp
  | .task who i =>
    simp only [move]
    split
    · split
      · simp
      · next x hx =>
        have := completes_no_mismatch (hi.nets x (List.mem_of_getElem? hx)) who
        split <;> simp_all
    · simp

/-- C145.  The tasks make all the outputs asked for. -/
theorem C145_chunks (threads n : ℕ) (h : 0 < threads) : (chunks threads n).length = threads ∧ (chunks threads n).sum = n := by
  have : n / threads * (threads - 1) ≤ n := (Nat.mul_le_mul_left _ (Nat.sub_le _ _)).trans (Nat.div_mul_le_self n threads)
  refine ⟨by simp [chunks]; omega, ?_⟩
  simp only [chunks, List.sum_append, List.sum_replicate_nat, List.sum_cons, List.sum_nil, Nat.add_zero]
  rw [Nat.mul_comm (threads - 1)]
  omega

example : chunks 3 1000 = [333, 333, 334] := by decide
/-- A run from the start that is not finished: the seed is exchanged and one task started on one side. -/
example : ∃ s, PoolRun 1 2 3 (multithread 100 0 3 1000) s ∧ ¬ AllDone s :=
  ⟨{ multithread 100 0 3 1000 with main := ⟨[], [], [], []⟩, startedP := 1 },
    .cons (.main true) (t := { multithread 100 0 3 1000 with main := ⟨[], seedRecv, [], [⟨"seed", 0, 16⟩]⟩ }) (by simp [move, multithread, step, act, seedSend])
      (.cons (.main false) (t := { multithread 100 0 3 1000 with main := ⟨[], [], [], []⟩ }) (by simp [move, step, act, seedRecv])
        (.cons (.start true) (by simp [move, multithread, busyP, chunks]) (.nil _))),
    by simp [AllDone, multithread, chunks]⟩

end Yacl.Scripts
