import Verif.Kernel.ScriptsPool

/-! C145, continued: `SVoleKernel::eval_streaming`.  It calls `eval_multithread` once per step, so the two parties can be in different
steps at the same time.  Whatever the schedulers do, the whole evaluation ends. -/

namespace Yacl.Scripts

/-! ### Model -/

/-- Whose move it is. -/
def Move.who : Move → Bool
  | .main who => who
  | .start who => who
  | .task who _ => who

/-- A party has returned from `eval_multithread`: the destructor of its pool has joined all its tasks (svole_kernel.cc L106, L145). -/
def returned (s : Pool) : Bool → Prop
  | true => s.main.p = [] ∧ s.startedP = s.nets.length ∧ ∀ n ∈ s.nets, n.p = []
  | false => s.main.q = [] ∧ s.startedQ = s.nets.length ∧ ∀ n ∈ s.nets, n.q = []

/-- svole_kernel.cc L152-160, L172-179: the number of outputs of every step.  `step` is positive; for 0 the code divides by zero. -/
def steps (step n : ℕ) : List ℕ :=
  let num := (n + step - 1) / step
  (List.range num).map fun i => if i = num - 1 then n - step * (num - 1) else step

/-- svole_kernel.cc L148-181: both parties at the start, one pool of tasks per step.  Simplification: the seeds of all steps travel on
one link, in order and in one direction; here every step has its own copy of that link, which is the same because the `k`-th seed read
is the `k`-th seed sent (C01). -/
def streaming (noise gap threads step n : ℕ) : List Pool := (steps step n).map (multithread noise gap threads)

/-- Move `m` in step `k`: the party must have returned from every step before. -/
inductive StreamMove (wP wQ : ℕ) : List Pool → List Pool → Prop
  | mk {s : List Pool} (k : ℕ) (m : Move) (a b : Pool) (hk : s[k]? = some a)
      (hpre : ∀ j x, j < k → s[j]? = some x → returned x m.who)
      (hm : move wP wQ a m = .ok b) : StreamMove wP wQ s (s.set k b)

/-! ### Specification -/

/-- The states `k` moves lead to. -/
inductive StreamRun (wP wQ : ℕ) : ℕ → List Pool → List Pool → Prop
  | nil (s) : StreamRun wP wQ 0 s s
  | cons {k s t u} : StreamMove wP wQ s t → StreamRun wP wQ k t u → StreamRun wP wQ (k + 1) s u

/-! ### Proof -/

theorem returned_of_done {s : Pool} (h : AllDone s) (who : Bool) : returned s who := by
  obtain ⟨h1, h2, h3, h4⟩ := h
  cases who
  · exact ⟨h1.2.1, h4, fun n hn => (h2 n hn).2.1⟩
  · exact ⟨h1.1, h3, fun n hn => (h2 n hn).1⟩

theorem sum_set_left (l : List Pool) (i : ℕ) (a b : Pool) (hn : l[i]? = some a) (h : left a = left b + 1) :
    (l.map left).sum = ((l.set i b).map left).sum + 1 := by
  induction l generalizing i with
  | nil => simp at hn
  | cons x l ih =>
    cases i with
    | zero => simp at hn; subst hn; simp; omega
    | succ i => simp at hn; simp [ih i hn]; omega

theorem stream_inv_move {wP wQ s t} (h : ∀ x ∈ s, Inv x) (hm : StreamMove wP wQ s t) :
    (∀ x ∈ t, Inv x) ∧ (s.map left).sum = (t.map left).sum + 1 ∧ t.length = s.length := by
  obtain ⟨k, m, a, b, hk, -, hm⟩ := hm
  obtain ⟨h1, h2⟩ := inv_move (h a (List.mem_of_getElem? hk)) hm
  refine ⟨?_, sum_set_left s k a b hk h2, by simp⟩
  intro y hy
  rcases List.mem_or_eq_of_mem_set hy with hy | rfl
  · exact h y hy
  · exact h1

theorem stream_inv_run {wP wQ k s t} (h : ∀ x ∈ s, Inv x) (hr : StreamRun wP wQ k s t) :
    (∀ x ∈ t, Inv x) ∧ (s.map left).sum = (t.map left).sum + k ∧ t.length = s.length := by
  induction hr with
  | nil => exact ⟨h, rfl, rfl⟩
  | cons hm _ ih =>
    obtain ⟨h1, h2, h3⟩ := stream_inv_move h hm
    obtain ⟨h4, h5, h6⟩ := ih h1
    exact ⟨h4, by omega, by omega⟩

theorem stream_inv_start (noise gap threads step n : ℕ) : ∀ x ∈ streaming noise gap threads step n, Inv x := by
  intro x hx
  simp only [streaming, List.mem_map] at hx
  obtain ⟨m, _, rfl⟩ := hx
  exact inv_start noise gap threads m

theorem stream_progress {wP wQ s} (hP : 0 < wP) (hQ : 0 < wQ) (h : ∀ x ∈ s, Inv x) :
    (∀ x ∈ s, AllDone x) ∨ ∃ t, StreamMove wP wQ s t := by
  by_cases hall : ∀ x ∈ s, AllDone x
  · exact .inl hall
  · have hex : ∃ i : ℕ, ∃ x, s[i]? = some x ∧ ¬ AllDone x := by
      push Not at hall
      obtain ⟨n, hn, hd⟩ := hall
      obtain ⟨i, hi, rfl⟩ := List.getElem_of_mem hn
      exact ⟨i, _, List.getElem?_eq_getElem hi, hd⟩
    classical
    obtain ⟨x, hx, hd⟩ := Nat.find_spec hex
    rcases progress hP hQ (h x (List.mem_of_getElem? hx)) with hc | ⟨m, b, hm⟩
    · exact absurd hc hd
    · refine .inr ⟨_, .mk _ m x b hx ?_ hm⟩
      intro j y hj hy
      apply returned_of_done
      by_contra hc
      exact Nat.find_min hex hj ⟨y, hy, hc⟩

/-! ### The property -/

/-- C145, streaming.  Under every schedule, with the two parties in any steps, something can happen until both have returned from every
step and every link is empty. -/
theorem C145_stream_no_deadlock (wP wQ noise gap threads step n k : ℕ) (hP : 0 < wP) (hQ : 0 < wQ) (s : List Pool)
    (hr : StreamRun wP wQ k (streaming noise gap threads step n) s) : (∀ x ∈ s, AllDone x) ∨ ∃ t, StreamMove wP wQ s t :=
  stream_progress hP hQ (stream_inv_run (stream_inv_start noise gap threads step n) hr).1

/-- C145, streaming.  It cannot go on for ever. -/
theorem C145_stream_ends (wP wQ noise gap threads step n k : ℕ) (s : List Pool)
    (hr : StreamRun wP wQ k (streaming noise gap threads step n) s) :
    k ≤ ((streaming noise gap threads step n).map left).sum := by
  have := (stream_inv_run (stream_inv_start noise gap threads step n) hr).2.1
  omega

/-- C145, streaming.  No thread ever reads a wrong message, in any step. -/
theorem C145_stream_no_mismatch (wP wQ noise gap threads step n k : ℕ) (s : List Pool)
    (hr : StreamRun wP wQ k (streaming noise gap threads step n) s) (x : Pool) (hx : x ∈ s) (m : Move) :
    move wP wQ x m ≠ .mismatch := by
  have hi := (stream_inv_run (stream_inv_start noise gap threads step n) hr).1 x hx
  match m with
  | .main who =>
    have := completes_no_mismatch hi.main who
    simp only [move]; split <;> simp_all
  | .start true => simp only [move]; split <;> simp
  | .start false => simp only [move]; split <;> simp
  | .task who i =>
    simp only [move]
    split
    · split
      · simp
      · next y hy =>
        have := completes_no_mismatch (hi.nets y (List.mem_of_getElem? hy)) who
        split <;> simp_all
    · simp

/-- How far the sender has come in a step: its calls left on the given link, tasks started and calls left in every task. -/
def placeP (s : Pool) : List Act × ℕ × List (List Act) := (s.main.p, s.startedP, s.nets.map (·.p))
def placeQ (s : Pool) : List Act × ℕ × List (List Act) := (s.main.q, s.startedQ, s.nets.map (·.q))

theorem step_other {who n m} (h : step who n = .ok m) : (who = true → m.q = n.q) ∧ (who = false → m.p = n.p) := by
  cases who
  · refine ⟨by simp, fun _ => ?_⟩
    simp only [step, Bool.false_eq_true, if_false] at h
    split at h <;> simp only [Res.ok.injEq, reduceCtorEq] at h
    rw [← h]
  · refine ⟨fun _ => ?_, by simp⟩
    simp only [step, if_true] at h
    split at h <;> simp only [Res.ok.injEq, reduceCtorEq] at h
    rw [← h]

theorem map_set_same {α : Type} (l : List Net) (f : Net → α) (i : ℕ) (n m : Net) (hn : l[i]? = some n) (h : f m = f n) :
    (l.set i m).map f = l.map f := by
  apply List.ext_getElem?
  intro j
  simp only [List.getElem?_map, List.getElem?_set]
  split
  · next hj =>
    subst hj
    split
    · rw [hn]; simp [h]
    · next hl => rw [List.getElem?_eq_none (by omega)]
  · rfl

theorem move_other {wP wQ a m b} (h : move wP wQ a m = .ok b) :
    (m.who = true → placeQ b = placeQ a) ∧ (m.who = false → placeP b = placeP a) := by
  match m, h with
  | .main who, h =>
    obtain ⟨x, hx, rfl⟩ := move_main.1 h
    obtain ⟨h1, h2⟩ := step_other hx
    exact ⟨fun hw => by simp [placeQ, h1 hw], fun hw => by simp [placeP, h2 hw]⟩
  | .start true, h =>
    simp only [move] at h
    split at h
    · cases h; exact ⟨fun _ => rfl, by simp [Move.who]⟩
    · exact absurd h (by simp)
  | .start false, h =>
    simp only [move] at h
    split at h
    · cases h; exact ⟨by simp [Move.who], fun _ => rfl⟩
    · exact absurd h (by simp)
  | .task who i, h =>
    obtain ⟨-, n, x, hn, hx, rfl⟩ := move_task.1 h
    obtain ⟨h1, h2⟩ := step_other hx
    exact ⟨fun hw => by simp only [placeQ, map_set_same a.nets (·.q) i n x hn (h1 hw)],
      fun hw => by simp only [placeP, map_set_same a.nets (·.p) i n x hn (h2 hw)]⟩

/-- C145, streaming.  A move changes one step, and a party gets on in a step only after it has returned from all the steps before. -/
theorem C145_stream_order (wP wQ : ℕ) (s t : List Pool) (h : StreamMove wP wQ s t) :
    ∃ (k : ℕ) (a b : Pool), s[k]? = some a ∧ t = s.set k b ∧
      (placeP b ≠ placeP a → ∀ x ∈ s.take k, x.main.p = [] ∧ x.startedP = x.nets.length ∧ ∀ n ∈ x.nets, n.p = []) ∧
      (placeQ b ≠ placeQ a → ∀ x ∈ s.take k, x.main.q = [] ∧ x.startedQ = x.nets.length ∧ ∀ n ∈ x.nets, n.q = []) := by
  obtain ⟨k, m, a, b, hk, hpre, hm⟩ := h
  have hall : ∀ x ∈ s.take k, returned x m.who := by
    intro x hx
    obtain ⟨j, hj, rfl⟩ := List.getElem_of_mem hx
    rw [List.length_take] at hj
    exact hpre j _ (by omega) (by rw [List.getElem_take]; exact List.getElem?_eq_getElem (by omega))
  obtain ⟨h1, h2⟩ := move_other hm
  refine ⟨k, a, b, hk, rfl, fun hp x hx => ?_, fun hq x hx => ?_⟩
  · have hw : m.who = true := by
      by_contra hc
      exact hp (h2 (by simpa using hc))
    have := hall x hx
    rw [hw] at this
    exact this
  · have hw : m.who = false := by
      by_contra hc
      exact hq (h1 (by simpa using hc))
    have := hall x hx
    rw [hw] at this
    exact this

/-- C145, streaming.  The steps together make all outputs, none of them more than a step. -/
theorem C145_steps (step n : ℕ) (h : 0 < step) : (steps step n).sum = n ∧ ∀ m ∈ steps step n, 0 < m ∧ m ≤ step := by
  obtain ⟨num, hnum⟩ : ∃ num, num = (n + step - 1) / step := ⟨_, rfl⟩
  have h1 : num * step ≤ n + step - 1 := by rw [hnum]; exact Nat.div_mul_le_self _ _
  have h2 : n + step - 1 < (num + 1) * step := by
    rw [hnum]; exact Nat.lt_mul_of_div_lt (Nat.lt_succ_self _) h
  simp only [steps, ← hnum]
  cases num with
  | zero => refine ⟨?_, by simp⟩; simp only [List.range_zero, List.map_nil, List.sum_nil]; rw [Nat.zero_add, Nat.one_mul] at h2; omega
  | succ k =>
    have h3 : (k + 1) * step = k * step + step := by ring
    have h4 : (k + 1 + 1) * step = k * step + step + step := by ring
    have h5 : step * k = k * step := Nat.mul_comm _ _
    simp only [Nat.add_sub_cancel]
    constructor
    · rw [List.range_succ, List.map_append, List.sum_append]
      have : (List.range k).map (fun i => if i = k then n - step * k else step) = List.replicate k step := by
        rw [List.eq_replicate_iff]
        refine ⟨by simp, ?_⟩
        intro b hb
        simp only [List.mem_map, List.mem_range] at hb
        obtain ⟨i, hi, rfl⟩ := hb
        rw [if_neg (by omega)]
      rw [this, List.sum_replicate_nat]
      simp only [List.map_cons, List.map_nil, List.sum_cons, List.sum_nil, if_true]
      omega
    · intro m hm
      simp only [List.mem_map, List.mem_range] at hm
      obtain ⟨i, hi, rfl⟩ := hm
      split <;> omega

example : steps 300 1000 = [300, 300, 300, 100] := by decide
/-- One party can be ahead: it has sent the seed of the first step while the other has done nothing. -/
example : ∃ s, StreamRun 1 2 1 (streaming 100 0 3 300 1000) s ∧ ¬ ∀ x ∈ s, AllDone x := by
  refine ⟨_, .cons (.mk 0 (.main true) (multithread 100 0 3 300)
    { multithread 100 0 3 300 with main := ⟨[], seedRecv, [], [⟨"seed", 0, 16⟩]⟩ } rfl (by simp)
    (by simp [move, multithread, step, act, seedSend])) (.nil _), ?_⟩
  intro h
  have := h { multithread 100 0 3 300 with main := ⟨[], seedRecv, [], [⟨"seed", 0, 16⟩]⟩ } (by
    have : streaming 100 0 3 300 1000 = multithread 100 0 3 300 :: (streaming 100 0 3 300 1000).tail := rfl
    rw [this]; simp)
  exact absurd this.1.2.1 (by simp [seedRecv])

end Yacl.Scripts
