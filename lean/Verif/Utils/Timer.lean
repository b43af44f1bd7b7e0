import Mathlib.Data.Nat.Notation
import Mathlib.Tactic.Common

/-! C143: yacl/utils/elapsed_timer.cc.  Times are nanoseconds of the steady clock. -/

namespace Yacl.Timer

/-! ### Model -/

/-- elapsed_timer.h L37-39.  Simplification: `time_elapsed_us_` is a `double` that only ever holds whole microseconds;
a natural number here, so exact (the `double` is exact below 2^53 microseconds). -/
structure Timer where
  beginPoint : ℕ
  elapsedUs : ℕ
  paused : Bool
deriving DecidableEq

/-- elapsed_timer.cc L30-34 `Restart` at time `now`. -/
def restart (_ : Timer) (now : ℕ) : Timer := { paused := false, elapsedUs := 0, beginPoint := now }

/-- elapsed_timer.cc L21-28, the constructor; `junk` is the uninitialised begin point of a timer that is not started. -/
def create (start : Bool) (junk now : ℕ) : Timer :=
  if start then restart { beginPoint := junk, elapsedUs := 0, paused := true } now
  else { beginPoint := junk, elapsedUs := 0, paused := true }

/-- `duration_cast` to microseconds: truncated. -/
def spanUs (a b : ℕ) : ℕ := (b - a) / 1000

/-- elapsed_timer.cc L36-46 `CountMs`, times 1000: microseconds. -/
def countUs (t : Timer) (now : ℕ) : ℕ := if t.paused then t.elapsedUs else spanUs t.beginPoint now + t.elapsedUs

/-- elapsed_timer.cc L50-61 `Pause`. -/
def pause (t : Timer) (now : ℕ) : Timer :=
  if t.paused then t else { t with elapsedUs := t.elapsedUs + spanUs t.beginPoint now, paused := true }

/-- elapsed_timer.cc L63-70 `Resume`. -/
def resume (t : Timer) (now : ℕ) : Timer := if !t.paused then t else { t with paused := false, beginPoint := now }

/-- The calls that change a timer. -/
inductive Op | restart | pause | resume
deriving DecidableEq

/-- One call at one time. -/
def step (t : Timer) : Op × ℕ → Timer
  | (.restart, now) => restart t now
  | (.pause, now) => pause t now
  | (.resume, now) => resume t now

/-- A history of calls. -/
def run (t : Timer) (h : List (Op × ℕ)) : Timer := h.foldl step t

/-! ### Specification -/

/-- The nanoseconds the watch has been running since the last restart: `running` tells whether it runs since the
time `since` of the last call, `total` is the time up to then. -/
def ranNs (running : Bool) (since total : ℕ) : List (Op × ℕ) → ℕ → ℕ
  | [], now => if running then total + (now - since) else total
  | (op, t) :: h, now =>
    let total' := if running then total + (t - since) else total
    match op with
    | .restart => ranNs true t 0 h now
    | .pause => ranNs false t total' h now
    | .resume => ranNs true t total' h now

/-- The clock does not go back. -/
def Monotone : ℕ → List (Op × ℕ) → ℕ → Prop
  | t, [], now => t ≤ now
  | t, (_, t') :: h, now => t ≤ t' ∧ Monotone t' h now

/-- How often the watch was told to pause. -/
def pauses (h : List (Op × ℕ)) : ℕ := (h.filter fun e => e.1 = .pause).length

/-! ### Proofs -/

/-- What the timer knows agrees with what the watch has run, up to less than a microsecond for each of `k` pauses. -/
def Agrees (t : Timer) (running : Bool) (since total k : ℕ) : Prop :=
  t.paused = !running ∧
  (running = true → t.beginPoint ≤ since ∧ 1000 * t.elapsedUs + (since - t.beginPoint) ≤ total ∧
    total ≤ 1000 * t.elapsedUs + (since - t.beginPoint) + 999 * k) ∧
  (running = false → 1000 * t.elapsedUs ≤ total ∧ total ≤ 1000 * t.elapsedUs + 999 * k)

theorem agrees_run (h : List (Op × ℕ)) : ∀ (t : Timer) (running : Bool) (since total k now : ℕ),
    Agrees t running since total k → Monotone since h now →
    1000 * countUs (run t h) now ≤ ranNs running since total h now ∧
    ranNs running since total h now < 1000 * (countUs (run t h) now + 1) + 999 * (k + pauses h) := by
  induction h with
  | nil =>
    intro t running since total k now ⟨h1, h2, h3⟩ hm
    simp only [Monotone] at hm
    simp only [run, List.foldl_nil, ranNs, pauses, List.filter_nil, List.length_nil, countUs, spanUs]
    cases running with
    | true =>
      obtain ⟨a, b, c⟩ := h2 rfl
      simp [h1]
      omega
    | false =>
      obtain ⟨b, c⟩ := h3 rfl
      simp [h1]
      omega
  | cons e h ih =>
    intro t running since total k now ⟨h1, h2, h3⟩ hm
    obtain ⟨op, t'⟩ := e
    obtain ⟨hm1, hm2⟩ := hm
    have hrun : run t ((op, t') :: h) = run (step t (op, t')) h := rfl
    rw [hrun]
    cases op with
    | restart =>
      have := ih (step t (.restart, t')) true t' 0 k now ⟨rfl, fun _ => by simp [step, restart], by simp⟩ hm2
      simpa [ranNs, pauses] using this
    | pause =>
      have hp : pauses ((Op.pause, t') :: h) = pauses h + 1 := by simp [pauses]
      have := ih (step t (.pause, t')) false t' (if running then total + (t' - since) else total) (k + 1) now
        (by
          refine ⟨?_, by simp, ?_⟩
          · cases running <;> simp [step, pause, h1]
          · intro _
            cases running with
            | true =>
              obtain ⟨a, b, c⟩ := h2 rfl
              simp [step, pause, h1, spanUs]
              omega
            | false =>
              obtain ⟨b, c⟩ := h3 rfl
              simp [step, pause, h1]
              omega) hm2
      rw [hp]
      simp only [ranNs]
      rw [Nat.add_comm (pauses h) 1, ← Nat.add_assoc]
      exact this
    | resume =>
      have hp : pauses ((Op.resume, t') :: h) = pauses h := by simp [pauses]
      have := ih (step t (.resume, t')) true t' (if running then total + (t' - since) else total) k now
        (by
          refine ⟨?_, ?_, by simp⟩
          · cases running <;> simp [step, resume, h1]
          · intro _
            cases running with
            | true =>
              obtain ⟨a, b, c⟩ := h2 rfl
              simp [step, resume, h1]
              omega
            | false =>
              obtain ⟨b, c⟩ := h3 rfl
              simp [step, resume, h1]
              omega) hm2
      rw [hp]
      simp only [ranNs]
      exact this

/-! ### Properties -/

/-- C143 (a): after any calls, the count is the time the timer was running since it was created or last restarted,
at most a microsecond less for the count itself and for each pause. -/
theorem C143_count (start : Bool) (junk t0 : ℕ) (h : List (Op × ℕ)) (now : ℕ) (hm : Monotone t0 h now) :
    1000 * countUs (run (create start junk t0) h) now ≤ ranNs start t0 0 h now ∧
    ranNs start t0 0 h now < 1000 * (countUs (run (create start junk t0) h) now + 1 + pauses h) := by
  have := agrees_run h (create start junk t0) start t0 0 0 now
    (by cases start <;> simp [Agrees, create, restart]) hm
  refine ⟨this.1, ?_⟩
  have := this.2
  omega

/-- C143 (b): looking does not disturb, a paused timer stands still, a running one does not go back; pausing twice or
resuming twice is as good as once. -/
theorem C143_still (t : Timer) (a b : ℕ) (hab : a ≤ b) :
    countUs t a ≤ countUs t b ∧ (t.paused = true → countUs t a = countUs t b) ∧
    pause (pause t a) b = pause t a ∧ resume (resume t a) b = resume t a ∧ countUs (pause t a) b = countUs t a := by
  refine ⟨?_, ?_, ?_, ?_, ?_⟩
  · unfold countUs spanUs
    split
    · exact Nat.le_refl _
    · have : (a - t.beginPoint) / 1000 ≤ (b - t.beginPoint) / 1000 := Nat.div_le_div_right (by omega)
      omega
  · intro h; simp [countUs, h]
  · unfold pause
    by_cases h : t.paused = true <;> simp [h]
  · unfold resume
    by_cases h : t.paused = true <;> simp [h]
  · unfold pause countUs
    by_cases h : t.paused = true
    · simp [h]
    · simp [h, Nat.add_comm]

/-- C143 (c): what a timer not started at creation counts does not depend on its uninitialised begin point. -/
theorem C143_uninitialised (j j' t0 : ℕ) (h : List (Op × ℕ)) (now : ℕ) :
    countUs (run (create false j t0) h) now = countUs (run (create false j' t0) h) now := by
  have key : ∀ (h : List (Op × ℕ)) (b b' e : ℕ),
      countUs (run ⟨b, e, true⟩ h) now = countUs (run ⟨b', e, true⟩ h) now := by
    intro h
    induction h with
    | nil => intro b b' e; rfl
    | cons ev h ih =>
      intro b b' e
      obtain ⟨op, t⟩ := ev
      cases op with
      | restart => rfl
      | pause => exact ih b b' e
      | resume => rfl
  exact key h j j' 0

/-- Concrete: started at 0, paused at 1500 ns, resumed at 5000, counted at 7600: 1 + 2 microseconds of 4.1. -/
example : Monotone 0 [(.pause, 1500), (.resume, 5000)] 7600 ∧
    countUs (run (create true 9 0) [(.pause, 1500), (.resume, 5000)]) 7600 = 3 ∧
    ranNs true 0 0 [(.pause, 1500), (.resume, 5000)] 7600 = 4100 := by
  refine ⟨by simp [Monotone], by decide, by decide⟩

end Yacl.Timer
