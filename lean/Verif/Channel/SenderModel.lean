import Verif.SegmentTree.Model

/-
Model of the send side of `yacl/link/transport/channel.cc`: retry loop, retry options, throttle window, chunk window,
and completion of a synchronous `Send`.
-/
namespace Yacl.Channel.Sender

/-! ### Retry options, yacl/link/retry_options.h -/

/-- retry_options.h L24-L44 `struct RetryOptions`. `unordered_set` is a list used only through membership/emptiness. -/
structure RetryOptions where
  maxRetry : Nat
  intervalMs : Nat
  incrMs : Nat
  maxIntervalMs : Nat
  errorCodes : List Nat
  httpCodes : List Nat
  aggressive : Bool
  deriving DecidableEq, Repr

/-- retry_options.h L25-L28. -/
def kDefaultMaxRetryCount : Nat := 3
def kDefaultRetryInterval : Nat := 1000
def kDefaultRetryIncrement : Nat := 2000
def kDefaultMaxRetryInterval : Nat := 10000

/-- The protobuf message `RetryOptionsProto` (link.proto L43-L63). In proto3 an unset scalar reads as 0. -/
structure RetryOptionsProto where
  maxRetry : Nat
  intervalMs : Nat
  incrMs : Nat
  maxIntervalMs : Nat
  errorCodes : List Nat
  httpCodes : List Nat
  aggressive : Bool
  deriving DecidableEq, Repr

/-- retry_options.h L46-L51 default constructor. -/
def RetryOptions.default : RetryOptions :=
  ⟨kDefaultMaxRetryCount, kDefaultRetryInterval, kDefaultRetryIncrement, kDefaultMaxRetryInterval, [], [], true⟩

/-- retry_options.h L55-L70: constructor from the protobuf message. The third field is ported as written: it tests
`retry_interval_incr_ms` but copies `retry_interval_ms`. -/
def RetryOptions.ofProto (pb : RetryOptionsProto) : RetryOptions where
  maxRetry := if pb.maxRetry ≠ 0 then pb.maxRetry else kDefaultMaxRetryCount
  intervalMs := if pb.intervalMs ≠ 0 then pb.intervalMs else kDefaultRetryInterval
  incrMs := if pb.incrMs ≠ 0 then pb.intervalMs else kDefaultRetryIncrement
  maxIntervalMs := if pb.maxIntervalMs ≠ 0 then pb.maxIntervalMs else kDefaultMaxRetryInterval
  errorCodes := pb.errorCodes
  httpCodes := pb.httpCodes
  aggressive := pb.aggressive

/-! ### Retry loop, channel.cc L321-L370 -/

/-- Outcome of one `link_->SendRequest`: success or a `LinkError` with its code and http code. Other exception types leave the
function immediately and are not modelled. -/
inductive Attempt where
  | ok
  | error (code http : Nat)
  deriving DecidableEq, Repr

/-- channel.cc L333-L347: lambda `should_retry`. -/
def shouldRetry (o : RetryOptions) (code http : Nat) : Bool :=
  if o.aggressive then true
  else if o.errorCodes.isEmpty || o.errorCodes.contains code then true
  else if http ≠ 0 && (o.httpCodes.isEmpty || o.httpCodes.contains http) then true
  else false

/-- Result of the whole call. -/
inductive Result where
  | sent
  | failed (code http : Nat)
  | aborted
  deriving DecidableEq, Repr

/-- channel.cc L358-L361: pause before retry number `count`, `uint32_t` arithmetic. -/
def interval (o : RetryOptions) (count : Nat) : Nat :=
  min ((o.intervalMs + count * o.incrMs) % 2 ^ 32) o.maxIntervalMs

/-- channel.cc L321-L370 `SendRequestWithRetry`. `env n` is what the transport does on the `n`-th attempt, `aborting n`
whether the abort flag is set when the `n`-th attempt begins. Returns the result and the pauses made. The recursion is on the
number of retries still allowed (`max_retry - retry_count`), so the loop is the code's loop. -/
def sendLoop (o : RetryOptions) (env : Nat → Attempt) (aborting : Nat → Bool) : (left : Nat) → (count : Nat) → Result × List Nat
  | left, count =>
    if aborting count then (.aborted, [])
    else match env count with
      | .ok => (.sent, [])
      | .error c h =>
        if !shouldRetry o c h then (.failed c h, [])
        else match left with
          | 0 => (.failed c h, [])
          | left' + 1 =>
            let (r, ps) := sendLoop o env aborting left' (count + 1)
            (r, interval o count :: ps)

def sendWithRetry (o : RetryOptions) (env : Nat → Attempt) (aborting : Nat → Bool) : Result × List Nat :=
  sendLoop o env aborting o.maxRetry 0

/-! ### Throttle window, channel.cc L613-L629 and L648-L664 -/

/-- Sender bookkeeping: `msg_seq_id_`, `received_ack_ids_`, `throttle_window_size_`. -/
structure Throttle where
  seq : Nat
  acks : SegmentTree.Tree
  window : Nat

inductive ThrottleOp where
  | send            -- any of Send / SendAsync / SendAsyncThrottled allocates the next sequence number
  | ack (id : Nat)  -- an ACK arrives (OnMessage)
  deriving DecidableEq, Repr

/-- channel.cc L591/L607/L626 (`fetch_add(1) + 1`) and L544-L547 (ACK). -/
def Throttle.step (t : Throttle) : ThrottleOp → Throttle
  | .send => { t with seq := t.seq + 1 }
  | .ack id => { t with acks := (SegmentTree.insert t.acks id).1 }

def Throttle.run (t : Throttle) (ops : List ThrottleOp) : Throttle := ops.foldl Throttle.step t

/-- channel.cc L648-L664: `ThrottleWindowWait(wait_count)` does not wait (any longer) in this state. -/
def Throttle.mayReturn (t : Throttle) (waitCount : Nat) : Bool :=
  !(decide (t.window ≠ 0) && decide (SegmentTree.count t.acks + t.window ≤ waitCount))

/-! ### Chunk window, channel.cc L180-L312 -/

/-- State of one `SendChunked` call: chunks not yet issued, `running_push_`, whether `async_exception_` is set, where the
calling thread is, and the outcome of each finished push. -/
inductive Phase where
  | looping            -- about to call GetToken for the next chunk (or Finished when none is left)
  | waitToken          -- inside GetToken, waiting (L232-L238); `running_push_` already incremented
  | waitFinish         -- inside Finished, waiting (L197-L205)
  | returned
  | threw
  deriving DecidableEq, Repr

structure Window where
  limit : Nat
  remaining : Nat
  running : Nat
  exn : Bool
  phase : Phase
  inFlight : Nat
  failed : Nat
  succeeded : Nat
  deriving DecidableEq, Repr

def Window.init (limit chunks : Nat) : Window := ⟨limit, chunks, 0, false, .looping, 0, 0, 0⟩

inductive WindowStep where
  | caller                  -- the calling thread advances
  | pushDone (ok : Bool)    -- one background push finishes (Token destructor, OnPushDone L187-L195)
  deriving DecidableEq, Repr

/-- One atomic step (under `mutex_`); `none` if the step is not enabled.
* caller/looping, chunks left: `GetToken` L228-L241: increment `running_push_`; proceed if it does not exceed the limit, else wait.
* caller/looping, none left: `Finished` L197-L205: return if `running_push_ = 0` (without looking at the exception), else wait.
* caller/waitToken, waitFinish: woken by `notify_all`; the exception is checked after every wake-up, then the loop condition.
  (Spurious wake-ups are included: the step is always enabled.) -/
def Window.step (w : Window) : WindowStep → Option Window
  | .caller =>
    match w.phase with
    | .looping =>
      if w.remaining > 0 then
        if w.running + 1 > w.limit then some { w with running := w.running + 1, phase := .waitToken }
        else some { w with running := w.running + 1, remaining := w.remaining - 1, inFlight := w.inFlight + 1 }
      else if w.running ≠ 0 then some { w with phase := .waitFinish }
      else some { w with phase := .returned }
    | .waitToken =>
      if w.exn then some { w with phase := .threw }
      else if w.running > w.limit then some w
      else some { w with remaining := w.remaining - 1, inFlight := w.inFlight + 1, phase := .looping }
    | .waitFinish =>
      if w.exn then some { w with phase := .threw }
      else if w.running ≠ 0 then some w
      else some { w with phase := .returned }
    | .returned => none
    | .threw => none
  | .pushDone ok =>
    if w.inFlight > 0 then
      some { w with running := w.running - 1, inFlight := w.inFlight - 1, exn := w.exn || !ok,
                    failed := w.failed + (if ok then 0 else 1), succeeded := w.succeeded + (if ok then 1 else 0) }
    else none

/-- Run a schedule; `none` if some step was not enabled. -/
def Window.run : Window → List WindowStep → Option Window
  | w, [] => some w
  | w, s :: ss => (w.step s).bind (fun w' => w'.run ss)

/-! ### Completion of a synchronous `Send`, channel.cc L73-L112 and L372-L401 and L596-L611 -/

/-- What the user of `Channel::Send` observes, given whether `SendImpl` threw in the send task. -/
inductive SendOutcome where
  | returned        -- Send returned normally
  | processExit     -- exit(-1) was called
  deriving DecidableEq, Repr

/-- `SendTask::Proc` L98-L111: if `SendImpl` throws the error is logged and, only when `exit_if_async_error` is set, the process
exits. In every other case the task object is destroyed, and `~SendTask` L86-L96 marks the sequence id as finished, which
is what `Send` waits for (`WaitSeqIdSendFinished` L386-L394). -/
def syncSend (exitIfAsyncError : Bool) (sendImplThrew : Bool) : SendOutcome :=
  if sendImplThrew && exitIfAsyncError then .processExit else .returned

end Yacl.Channel.Sender
