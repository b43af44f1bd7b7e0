import Verif.Channel.SenderModel
import Verif.SegmentTree.Props

/-! Property theorems C08, C11, C12, C13. -/
namespace Yacl.Channel.Sender

/-! ### C11 -/

/-- Specification: an error is retryable under the policy documented in link.proto L43-L63. -/
def Retryable (o : RetryOptions) (code http : Nat) : Prop :=
  o.aggressive = true ∨ o.errorCodes = [] ∨ code ∈ o.errorCodes ∨
    (http ≠ 0 ∧ (o.httpCodes = [] ∨ http ∈ o.httpCodes))

theorem shouldRetry_iff (o : RetryOptions) (c h : Nat) : shouldRetry o c h = true ↔ Retryable o c h := by
  unfold shouldRetry Retryable
  cases o.aggressive <;> simp <;> grind

/-- Attempt `n` ends the call: it is aborted, succeeds, or fails with an error that must not be retried. -/
def Final (o : RetryOptions) (env : Nat → Attempt) (aborting : Nat → Bool) (n : Nat) : Prop :=
  aborting n = true ∨ env n = .ok ∨ ∃ c h, env n = .error c h ∧ ¬ Retryable o c h

/-- The result of the call when attempt `n` is the last one made. -/
def resultAt (env : Nat → Attempt) (aborting : Nat → Bool) (n : Nat) : Result :=
  if aborting n then .aborted else match env n with
    | .ok => .sent
    | .error c h => .failed c h

theorem sendLoop_spec (o : RetryOptions) (env : Nat → Attempt) (aborting : Nat → Bool) (left : Nat) :
    ∀ count, ∃ n, count ≤ n ∧ n ≤ count + left ∧
      (∀ m, count ≤ m → m < n → ¬ Final o env aborting m) ∧
      (Final o env aborting n ∨ n = count + left) ∧
      (sendLoop o env aborting left count).1 = resultAt env aborting n ∧
      (sendLoop o env aborting left count).2 = (List.range' count (n - count)).map (interval o) := by
  induction left with
  | zero =>
    intro count
    refine ⟨count, Nat.le_refl _, by omega, fun m h1 h2 => by omega, Or.inr (by omega), ?_, ?_⟩
    · rw [sendLoop]; unfold resultAt
      cases aborting count <;> simp
      cases env count <;> simp
    · rw [sendLoop]
      cases aborting count <;> simp
      cases env count <;> simp
  | succ left ih =>
    intro count
    by_cases hF : Final o env aborting count
    · refine ⟨count, Nat.le_refl _, by omega, fun m h1 h2 => by omega, Or.inl hF, ?_⟩
      rw [sendLoop]; unfold resultAt
      rcases hF with h | h | ⟨c, h, he, hn⟩
      · simp [h]
      · cases aborting count <;> simp [h]
      · have : shouldRetry o c h = false := by
          rw [← Bool.not_eq_true, shouldRetry_iff]; exact hn
        cases aborting count <;> simp [he, this]
    · obtain ⟨n, h1, h2, h3, h4, h5, h6⟩ := ih (count + 1)
      refine ⟨n, by omega, by omega, ?_, ?_, ?_⟩
      · intro m hm1 hm2
        by_cases hmc : m = count
        · subst hmc; exact hF
        · exact h3 m (by omega) hm2
      · rcases h4 with h4 | h4
        · exact Or.inl h4
        · right; omega
      · unfold Final at hF
        have ha : aborting count = false := by
          cases h : aborting count with
          | false => rfl
          | true => exact absurd (Or.inl h) hF
        cases he : env count with
        | ok => exact absurd (Or.inr (Or.inl he)) hF
        | error c h =>
          have hr : shouldRetry o c h = true := by
            rw [shouldRetry_iff]
            by_cases hx : Retryable o c h
            · exact hx
            · exact absurd (Or.inr (Or.inr ⟨c, h, he, hx⟩)) hF
          rw [sendLoop]
          simp only [ha, he, hr, Bool.false_eq_true, if_false, Bool.not_true, h5, h6]
          refine ⟨trivial, ?_⟩
          have e : n - count = (n - (count + 1)) + 1 := by omega
          rw [e, List.range'_succ]
          simp

/-- **C11.** For every policy, every behaviour of the transport and every moment of abort: the call makes attempts
`0, 1, ..., n` where `n` is the first attempt that is final (aborted, succeeded, or failed with a non-retryable error), or
`max_retry` if there is none before; the result is that of attempt `n`; before retry `i` it pauses
`interval i` milliseconds, which never exceeds the configured maximum. -/
theorem C11_retry_policy (o : RetryOptions) (env : Nat → Attempt) (aborting : Nat → Bool) :
    ∃ n, n ≤ o.maxRetry ∧
      (∀ m < n, ¬ Final o env aborting m) ∧ (Final o env aborting n ∨ n = o.maxRetry) ∧
      (sendWithRetry o env aborting).1 = resultAt env aborting n ∧
      (sendWithRetry o env aborting).2 = (List.range n).map (interval o) ∧
      ∀ p ∈ (sendWithRetry o env aborting).2, p ≤ o.maxIntervalMs := by
  obtain ⟨n, h1, h2, h3, h4, h5, h6⟩ := sendLoop_spec o env aborting o.maxRetry 0
  refine ⟨n, by omega, fun m hm => h3 m (by omega) hm, ?_, h5, ?_, ?_⟩
  · rcases h4 with h | h
    · exact Or.inl h
    · right; omega
  · unfold sendWithRetry; rw [h6, List.range_eq_range']; rfl
  · intro p hp
    unfold sendWithRetry at hp
    rw [h6] at hp
    obtain ⟨i, _, rfl⟩ := List.mem_map.1 hp
    unfold interval; omega

/-- Corollary: the call reports success iff, without abort, some attempt within the first `max_retry + 1` succeeds and all
earlier ones fail retryably. -/
theorem C11_success_iff (o : RetryOptions) (env : Nat → Attempt) (aborting : Nat → Bool) :
    (sendWithRetry o env aborting).1 = .sent ↔
      ∃ n ≤ o.maxRetry, env n = .ok ∧ aborting n = false ∧ ∀ m < n, ¬ Final o env aborting m := by
  obtain ⟨n, h1, h2, h3, h4, _, _⟩ := C11_retry_policy o env aborting
  rw [h4]
  constructor
  · intro h
    unfold resultAt at h
    split at h
    · simp at h
    · rename_i ha
      refine ⟨n, h1, ?_, by simpa using ha, h2⟩
      cases he : env n with
      | ok => rfl
      | error c k => rw [he] at h; simp at h
  · rintro ⟨n', h1', he, ha, hm⟩
    have : n' = n := by
      rcases Nat.lt_trichotomy n' n with h | h | h
      · exact absurd (Or.inr (Or.inl he)) (h2 n' h)
      · exact h
      · rcases h3 with h3 | h3
        · exact absurd h3 (hm n h)
        · omega
    subst this
    simp [resultAt, ha, he]

/-- Non-vacuity: two retryable failures then success, with pauses 1000 and 3000. -/
example : sendWithRetry RetryOptions.default (fun n => if n < 2 then .error 5 503 else .ok) (fun _ => false) =
    (.sent, [1000, 3000]) := by decide

/-! ### C12 -/

/-- Documented meaning of one option field: the given value, or the default when unset (zero in proto3). -/
def fieldOr (given dflt : Nat) : Nat := if given ≠ 0 then given else dflt

/-- **C12, violated.** A descriptor with retry interval 7 and interval increment 100 yields increment 7, not 100. -/
theorem C12_retry_increment_violated :
    (RetryOptions.ofProto ⟨5, 7, 100, 60000, [], [], false⟩).incrMs = 7 ∧
    (RetryOptions.ofProto ⟨5, 7, 100, 60000, [], [], false⟩).incrMs ≠ fieldOr 100 2000 := by decide

/-- **C12, what holds**: every field except the increment is as documented; the increment is as documented exactly when it
is unset or equal to the base interval. Missing: the increment in the remaining case (violated above). The defaults are three attempts more, 1 s, 2 s and 10 s;
a channel without a descriptor has them too and retries after every error. -/
theorem C12_retry_options_partial (pb : RetryOptionsProto) :
    let o := RetryOptions.ofProto pb
    o.maxRetry = fieldOr pb.maxRetry 3 ∧
    o.intervalMs = fieldOr pb.intervalMs 1000 ∧
    o.maxIntervalMs = fieldOr pb.maxIntervalMs 10000 ∧
    o.errorCodes = pb.errorCodes ∧ o.httpCodes = pb.httpCodes ∧ o.aggressive = pb.aggressive ∧
    (o.incrMs = fieldOr pb.incrMs 2000 ↔ pb.incrMs = 0 ∨ pb.incrMs = pb.intervalMs) ∧
    RetryOptions.default = ⟨3, 1000, 2000, 10000, [], [], true⟩ := by
  refine ⟨rfl, rfl, rfl, rfl, rfl, rfl, ?_, rfl⟩
  unfold RetryOptions.ofProto fieldOr
  simp only
  by_cases h : pb.incrMs = 0
  · simp [h, kDefaultRetryIncrement]
  · simp only [ne_eq, h, not_false_eq_true, if_true, false_or]
    exact eq_comm

/-! ### C08 -/

/-- Ids among `1..n` that are not in the history of acks. -/
def unacked (ops : List ThrottleOp) (n : Nat) : List Nat :=
  ((List.range n).map (· + 1)).filter (fun id => ThrottleOp.ack id ∉ ops)

/-- Number of sends in a history. -/
def sends (ops : List ThrottleOp) : Nat := (ops.filter (· = .send)).length

/-- The ids acknowledged in a history. -/
def ackList (ops : List ThrottleOp) : List Nat := ops.filterMap (fun o => match o with | .ack i => some i | .send => none)

theorem run_acks (ops : List ThrottleOp) (t : Throttle) :
    (t.run ops).acks = (SegmentTree.run t.acks (ackList ops)).1 ∧ (t.run ops).seq = t.seq + sends ops ∧
      (t.run ops).window = t.window := by
  induction ops generalizing t with
  | nil => simp [Throttle.run, ackList, SegmentTree.run, sends]
  | cons o ops ih =>
    have := ih (t.step o)
    simp only [Throttle.run, List.foldl_cons] at this ⊢
    refine ⟨?_, ?_, ?_⟩
    · rw [this.1]
      cases o <;> simp [Throttle.step, ackList, SegmentTree.run]
    · rw [this.2.1]
      cases o <;> simp [Throttle.step, sends]; omega
    · rw [this.2.2]; cases o <;> rfl

theorem mem_ackList (ops : List ThrottleOp) (i : Nat) : i ∈ ackList ops ↔ ThrottleOp.ack i ∈ ops := by
  unfold ackList
  rw [List.mem_filterMap]
  constructor
  · rintro ⟨o, ho, h⟩
    cases o with
    | send => simp at h
    | ack j => simp at h; subst h; exact ho
  · intro h; exact ⟨_, h, rfl⟩

/-- **C08.** In every history in which ACKs only ever acknowledge messages that exist, with window `w > 0`: when a
throttled send that was given sequence number `seq` returns, the number of unacknowledged messages among all messages sent so
far is smaller than `w` plus the number of messages allocated after it; for a single sending thread
(`seq` = number of messages sent) fewer than `w` messages are unacknowledged. -/
theorem C08_throttle_window (w : Nat) (hw : 0 < w) (ops : List ThrottleOp)
    (hlen : sends ops < 2 ^ 64 - 1)
    (hacks : ∀ i, ThrottleOp.ack i ∈ ops → 1 ≤ i ∧ i ≤ sends ops) (seq : Nat) (hseq : seq ≤ sends ops)
    (hret : ((⟨0, SegmentTree.empty, w⟩ : Throttle).run ops).mayReturn seq = true) :
    (unacked ops (sends ops)).length < w + (sends ops - seq) ∧
    (seq = sends ops → (unacked ops (sends ops)).length < w) := by
  obtain ⟨h1, h2, h3⟩ := run_acks ops ⟨0, SegmentTree.empty, w⟩
  simp only at h1 h3
  have hb : ∀ x ∈ ackList ops, x < 2 ^ 64 - 1 := by
    intro x hx; have := hacks x ((mem_ackList _ _).1 hx); omega
  have hcount := (SegmentTree.C01_segment_tree_is_exact_set (ackList ops) hb).2.1
  unfold Throttle.mayReturn at hret
  rw [h1, h3, hcount] at hret
  simp only [ne_eq, Bool.not_eq_true', Bool.and_eq_false_iff, decide_eq_false_iff_not, Decidable.not_not] at hret
  have hc : ¬ (SegmentTree.Spec.distinct (ackList ops) + w ≤ seq) := by
    rcases hret with h | h
    · omega
    · exact h
  -- acknowledged + unacknowledged = sent
  have hsum : SegmentTree.Spec.distinct (ackList ops) + (unacked ops (sends ops)).length = sends ops := by
    have hnd : (((List.range (sends ops)).map (· + 1))).Nodup :=
      List.Nodup.map (fun a b h => by omega) List.nodup_range
    have hfin : (ackList ops).toFinset = (((List.range (sends ops)).map (· + 1)).filter (fun id => ThrottleOp.ack id ∈ ops)).toFinset := by
      ext x
      simp only [List.mem_toFinset, List.mem_filter, List.mem_map, List.mem_range, mem_ackList, decide_eq_true_eq]
      constructor
      · intro hx
        have := hacks x hx
        exact ⟨⟨x - 1, by omega, by omega⟩, hx⟩
      · exact fun h => h.2
    unfold SegmentTree.Spec.distinct
    rw [hfin, List.toFinset_card_of_nodup (hnd.filter _)]
    unfold unacked
    have := List.length_eq_length_filter_add (l := (List.range (sends ops)).map (· + 1)) (fun id => decide (ThrottleOp.ack id ∈ ops))
    simp only [List.length_map, List.length_range] at this
    simp only [decide_not]
    omega
  constructor
  · omega
  · intro h; omega

/-- Non-vacuity: window 2, three sends: with one ack the third send still waits, with two it returns. -/
example : ((⟨0, SegmentTree.empty, 2⟩ : Throttle).run [.send, .send, .send, .ack 2]).mayReturn 3 = false := by decide
example : ((⟨0, SegmentTree.empty, 2⟩ : Throttle).run [.send, .send, .send, .ack 2, .ack 2, .ack 1]).mayReturn 3 = true := by
  decide

/-! ### C13 -/

/-- **C13, violated.** With `exit_if_async_error = false`, `Send` returns normally although the transport refused the
message. -/
theorem C13_sync_send_hides_failure_violated : syncSend false true = .returned := rfl

/-- **C13, violated (chunked messages).** Even before that, the failure of one chunk push is lost when every push has
finished by the time the caller looks: two chunks, window 2, the first fails, the caller returns normally. -/
theorem C13_chunk_failure_lost_violated :
    (Window.run (Window.init 2 2) [.caller, .pushDone false, .caller, .pushDone true, .caller]).map
      (fun w => (w.phase, w.failed)) = some (.returned, 1) := by decide

/-- Invariant of the chunk window. -/
structure WInv (limit chunks : Nat) (w : Window) : Prop where
  lim : w.limit = limit
  run : w.phase ≠ .threw → w.running = w.inFlight + (if w.phase = .waitToken then 1 else 0)
  fly : w.inFlight ≤ limit
  tot : w.remaining + w.inFlight + w.failed + w.succeeded = chunks
  tok : w.phase = .waitToken → 0 < w.remaining
  fin : w.phase = .waitFinish → w.remaining = 0
  ret : w.phase = .returned → w.remaining = 0 ∧ w.inFlight = 0
  exn : w.exn = true ↔ 0 < w.failed

theorem window_inv (limit chunks : Nat) (ss : List WindowStep) :
    ∀ w w', WInv limit chunks w → w.run ss = some w' → WInv limit chunks w' := by
  induction ss with
  | nil => intro w w' h hr; simp [Window.run] at hr; exact hr ▸ h
  | cons s ss ih =>
    intro w w' h hr
    simp only [Window.run] at hr
    cases hs : w.step s with
    | none => rw [hs] at hr; simp at hr
    | some w1 =>
      rw [hs] at hr
      refine ih w1 w' ?_ hr
      obtain ⟨h1, h2, h3, h4, h5, h6, h7, h8⟩ := h
      cases s with
      | caller =>
        simp only [Window.step] at hs
        split at hs
        · rename_i hp
          split at hs
          · rename_i hrem
            split at hs
            · simp only [Option.some.injEq] at hs; subst hs
              constructor <;> simp_all
            · simp only [Option.some.injEq] at hs; subst hs
              constructor <;> simp_all <;> omega
          · split at hs
            · simp only [Option.some.injEq] at hs; subst hs
              constructor <;> simp_all
            · simp only [Option.some.injEq] at hs; subst hs
              constructor <;> simp_all
        · rename_i hp
          split at hs
          · simp only [Option.some.injEq] at hs; subst hs
            constructor <;> simp_all
          · split at hs
            · simp only [Option.some.injEq] at hs; subst hs
              exact ⟨h1, h2, h3, h4, h5, h6, h7, h8⟩
            · simp only [Option.some.injEq] at hs; subst hs
              constructor <;> simp_all <;> omega
        · rename_i hp
          split at hs
          · simp only [Option.some.injEq] at hs; subst hs
            constructor <;> simp_all
          · split at hs
            · simp only [Option.some.injEq] at hs; subst hs
              exact ⟨h1, h2, h3, h4, h5, h6, h7, h8⟩
            · simp only [Option.some.injEq] at hs; subst hs
              constructor <;> simp_all
        · simp at hs
        · simp at hs
      | pushDone ok =>
        simp only [Window.step] at hs
        split at hs
        · simp only [Option.some.injEq] at hs; subst hs
          constructor
          · exact h1
          · simp only; intro hne; rw [h2 hne]; omega
          · simp only; omega
          · simp only; cases ok <;> simp <;> omega
          · exact h5
          · exact h6
          · intro hp; have := h7 hp; simp only; omega
          · cases ok <;> simp [h8]
        · simp at hs

/-- Bound on parallelism: in every schedule at most `limit` chunk pushes are in flight. -/
theorem C13_parallel_chunks_bounded (limit chunks : Nat) (ss : List WindowStep) (w : Window)
    (hr : (Window.init limit chunks).run ss = some w) : w.inFlight ≤ limit := by
  exact (window_inv limit chunks ss _ w (by constructor <;> simp [Window.init]) hr).fly

/-- **C13, what holds.** (a) When `exit_if_async_error` is set, `Send` returns normally only if `SendImpl` did not throw.
(b) A chunked `SendImpl` that returns in a schedule in which no push failed has pushed every chunk; and whenever it returns, every
chunk push has at least finished. Missing for the full property: the two violated cases above. -/
theorem C13_sync_send_partial :
    (∀ threw, syncSend true threw = .returned → threw = false) ∧
    (∀ limit chunks ss w, (Window.init limit chunks).run ss = some w → w.phase = .returned →
      w.failed + w.succeeded = chunks ∧ (w.failed = 0 → w.succeeded = chunks)) := by
  refine ⟨by intro t; cases t <;> simp [syncSend], ?_⟩
  intro limit chunks ss w hr hp
  have h := window_inv limit chunks ss _ w (by constructor <;> simp [Window.init]) hr
  have := h.ret hp
  have := h.tot
  omega

example : ((Window.init 1 2).run [.caller, .caller, .pushDone true, .caller, .pushDone true, .caller]).map (·.phase) =
    some .returned := by decide

end Yacl.Channel.Sender
