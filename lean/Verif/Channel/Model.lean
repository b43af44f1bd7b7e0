import Verif.SegmentTree.Model

/-
Model of the receive side, wire keys and chunking of `yacl/link/transport/channel.{h,cc}`.

Simplifications (all of them):
* One call of `OnRequest`/`Recv`/`StopReceivingAndAckUnreadMsgs` is one atomic step. In the code each runs under `msg_mutex_`
  (and chunk bookkeeping under `chunked_values_mutex_`; reassembly and the following `OnMessage` are two critical sections,
  merged here).
* Requests are the already unpacked (key, value[, offset, total]) tuples; protobuf packing is not modelled.
* `Recv` that would block is the outcome `blocked` (condition variable wait; time-outs are not modelled).
* Sizes are mathematical naturals except where the code adds two `size_t`s (kept modulo 2^64).
-/
namespace Yacl.Channel

abbrev Bytes := List UInt8

/-- channel.cc L34-L36. -/
def kAckKey : Bytes := [65, 67, 75, 1, 2]
def kFinKey : Bytes := [70, 73, 78, 1, 2]
def kSeqKey : Bytes := [1, 2]

/-- `std::string::find(kSeqKey)`: position of the first occurrence of the two-byte separator. -/
def findSeq : Bytes → Option Nat
  | [] => none
  | a :: rest =>
    if kSeqKey.isPrefixOf (a :: rest) then some 0
    else (findSeq rest).map (· + 1)

/-- channel.cc L38-L42 `NormalMessageKeyEnforce`: `true` when the key is accepted (otherwise the call throws). -/
def keyAccepted (k : Bytes) : Bool := !k.isEmpty && (findSeq k).isNone

/-- `std::to_string(size_t)`. -/
def decimal (n : Nat) : Bytes :=
  if n < 10 then [UInt8.ofNat (48 + n)] else decimal (n / 10) ++ [UInt8.ofNat (48 + n % 10)]
termination_by n

/-- ASCII whitespace stripped by `absl::SimpleAtoi`. -/
def isSpace (b : UInt8) : Bool := b == 32 || (9 ≤ b && b ≤ 13)

def isDigit (b : UInt8) : Bool := 48 ≤ b && b ≤ 57

/-- Digit loop of `absl::SimpleAtoi` for a 64-bit unsigned result: `none` on a non-digit or on overflow. -/
def parseDigits : Nat → Bytes → Option Nat
  | acc, [] => some acc
  | acc, b :: rest =>
    if isDigit b then
      let acc' := acc * 10 + (b.toNat - 48)
      if acc' < 2 ^ 64 then parseDigits acc' rest else none
    else none

/-- Optional leading `+` accepted by `absl::SimpleAtoi`. -/
def stripPlus (v : Bytes) : Bytes := if v.head? = some 43 then v.tail else v

/-- channel.cc L44-L51 `ViewToSizeT`: `absl::SimpleAtoi` into `size_t`; `none` = the YACL_ENFORCE throws. Leading and
trailing ASCII whitespace is stripped, a leading `+` is accepted, the digit string must not be empty. -/
def viewToSizeT (v : Bytes) : Option Nat :=
  let v := stripPlus ((v.dropWhile isSpace).reverse.dropWhile isSpace).reverse
  if v.isEmpty then none else parseDigits 0 v

/-- channel.cc L53-L55 `BuildChannelKey`. -/
def buildChannelKey (key : Bytes) (seq : Nat) : Bytes := key ++ kSeqKey ++ decimal seq

/-- channel.cc L57-L69 `SplitChannelKey`; `none` = throws (malformed number). -/
def splitChannelKey (key : Bytes) : Option (Bytes × Nat) :=
  match findSeq key with
  | none => some (key, 0)
  | some pos =>
    match viewToSizeT (key.drop (pos + kSeqKey.length)) with
    | none => none
    | some n => some (key.take pos, n)

/-! ### Chunking -/

/-- A received value: `none` marks a byte of the reassembly buffer that was never written (uninitialised memory). -/
abbrev Value := List (Option UInt8)

/-- channel.cc L476-L505 `ChunkedMessage`: `received_`, `bytes_written_`, `message_`. -/
structure ChunkedMessage where
  received : List Nat
  written : Nat
  buf : Value
  deriving DecidableEq, Repr

/-- channel.cc L478: `ChunkedMessage(message_length)`, buffer contents uninitialised. -/
def ChunkedMessage.new (len : Nat) : ChunkedMessage := ⟨[], 0, List.replicate len none⟩

/-- `memcpy` of `data` at `off` into `buf` (only used when in bounds). -/
def writeAt (buf : Value) (off : Nat) (data : Bytes) : Value :=
  buf.take off ++ data.map some ++ buf.drop (off + data.length)

/-- channel.cc L480-L487 `AddChunk`; `none` = the memcpy is out of bounds of the buffer (undefined behaviour). -/
def ChunkedMessage.addChunk (m : ChunkedMessage) (off : Nat) (data : Bytes) : Option ChunkedMessage :=
  if off ∈ m.received then some m
  else if off + data.length ≤ m.buf.length then
    some ⟨off :: m.received, m.written + data.length, writeAt m.buf off data⟩
  else none

/-- channel.cc L489-L492 `IsFullyFilled`. -/
def ChunkedMessage.isFullyFilled (m : ChunkedMessage) : Bool := decide (m.written = m.buf.length)

/-- Transport request after unpacking (channel.cc L769-L796 `OnRequest`). -/
inductive Request where
  | mono (key : Bytes) (value : Bytes)
  | chunk (key : Bytes) (data : Bytes) (offset total : Nat)
  deriving DecidableEq, Repr

/-- channel.cc L284: `num_chunks`. -/
def numChunks (len per : Nat) : Nat := (len + per - 1) / per

/-- channel.cc L281-L312 `SendChunked`: the requests handed to the transport, in issue order (they are sent by parallel
tasks, so any arrival order is possible). -/
def sendChunked (per : Nat) (key value : Bytes) : List Request :=
  (List.range (numChunks value.length per)).map fun i =>
    .chunk key ((value.drop (i * per)).take (min per (value.length - i * per))) (i * per) value.length

/-- channel.h L239-L250 `SendImpl`: chunked iff larger than the maximum chunk size. -/
def sendImpl (per : Nat) (key value : Bytes) : List Request :=
  if value.length > per then sendChunked per key value else [.mono key value]

/-! ### Receive side -/

/-- Receive-side state of a channel (channel.h L331-L372). Maps are association lists without duplicate keys. -/
structure State where
  receivedIds : SegmentTree.Tree
  recvMsgs : List (Bytes × (Value × Nat))
  chunked : List (Bytes × ChunkedMessage)
  ackIds : SegmentTree.Tree
  fin : Option Nat
  waitingFinish : Bool
  /-- sequence numbers for which `SendAck` submitted an ACK task, newest first -/
  acksSent : List Nat

def State.init : State := ⟨SegmentTree.empty, [], [], SegmentTree.empty, none, false, []⟩

/-- Observable outcome of one step. -/
inductive Out where
  | ok
  | value (v : Value)
  | blocked
  | thrown
  | ub
  deriving DecidableEq, Repr

/-- channel.cc L439-L444 `SendAck`. -/
def sendAck (st : State) (seq : Nat) : State :=
  if seq > 0 then { st with acksSent := seq :: st.acksSent } else st

/-- `std::map::find`. -/
def lookup {α} (k : Bytes) : List (Bytes × α) → Option α
  | [] => none
  | (k', v) :: rest => if k' = k then some v else lookup k rest

/-- `std::map::erase(key)`. -/
def erase {α} (k : Bytes) (l : List (Bytes × α)) : List (Bytes × α) := l.filter (fun e => e.1 ≠ k)

/-- Replace or add an entry. -/
def upsert {α} (k : Bytes) (v : α) (l : List (Bytes × α)) : List (Bytes × α) := (k, v) :: erase k l

/-- Store a message that passed the duplicate test: channel.cc L458-L473. -/
def storeMessage (st : State) (k : Bytes) (v : Value) (seq : Nat) : State × Out :=
  if !st.waitingFinish then
    match lookup k st.recvMsgs with
    | none => ({ st with recvMsgs := (k, (v, seq)) :: st.recvMsgs }, .ok)
    | some _ => (st, if seq > 0 then .thrown else .ok)
  else (sendAck st seq, .ok)

/-- channel.cc L446-L474 `OnNormalMessage`. -/
def onNormalMessage (st : State) (key : Bytes) (v : Value) : State × Out :=
  match splitChannelKey key with
  | none => (st, .thrown)
  | some (k, seq) =>
    if seq > 0 then
      match SegmentTree.insert st.receivedIds seq with
      | (_, false) => (st, .ok)
      | (t, true) => storeMessage { st with receivedIds := t } k v seq
    else storeMessage st k v seq

/-- The bytes of a value, `none` if it contains an uninitialised byte (only used for ACK/FIN bodies). -/
def valueBytes (v : Value) : Option Bytes := v.mapM id

/-- channel.cc L542-L562 `OnMessage`. -/
def onMessage (st : State) (key : Bytes) (v : Value) : State × Out :=
  if key = kAckKey then
    match (valueBytes v).bind viewToSizeT with
    | none => (st, .thrown)
    | some n => ({ st with ackIds := (SegmentTree.insert st.ackIds n).1 }, .ok)
  else if key = kFinKey then
    match st.fin with
    | some _ => (st, .ok)
    | none =>
      match (valueBytes v).bind viewToSizeT with
      | none => (st, .thrown)
      | some n => ({ st with fin := some n }, .ok)
  else onNormalMessage st key v

/-- channel.cc L507-L540 `OnChunkedMessage`. The bounds check adds two `size_t` values. -/
def onChunked (st : State) (key data : Bytes) (offset total : Nat) : State × Out :=
  if (offset + data.length) % 2 ^ 64 > total then (st, .thrown)
  else
    let m := (lookup key st.chunked).getD (ChunkedMessage.new total)
    match m.addChunk offset data with
    | none => (st, .ub)
    | some m' =>
      if m'.isFullyFilled then onMessage { st with chunked := erase key st.chunked } key m'.buf
      else ({ st with chunked := upsert key m' st.chunked }, .ok)

/-- channel.cc L769-L796 `OnRequest` (not aborting). -/
def onRequest (st : State) : Request → State × Out
  | .mono key value => onMessage st key (value.map some)
  | .chunk key data offset total => onChunked st key data offset total

/-- channel.cc L403-L437 `Recv` (not aborting): `blocked` when no message with that key is there. -/
def recv (st : State) (key : Bytes) : State × Out :=
  if !keyAccepted key then (st, .thrown)
  else match lookup key st.recvMsgs with
    | none => (st, .blocked)
    | some (v, seq) => (sendAck { st with recvMsgs := erase key st.recvMsgs } seq, .value v)

/-- channel.cc L703-L713 `StopReceivingAndAckUnreadMsgs`. -/
def stopReceiving (st : State) : State :=
  let st' := { st with waitingFinish := true }
  { (st.recvMsgs.foldl (fun s e => sendAck s e.2.2) st') with recvMsgs := [] }

/-- One step of the receive side. -/
inductive Event where
  | request (r : Request)
  | recv (key : Bytes)
  | stop
  deriving DecidableEq, Repr

def step (st : State) : Event → State × Out
  | .request r => onRequest st r
  | .recv k => recv st k
  | .stop => (stopReceiving st, .ok)

/-- A history of events with the outcome of each. -/
def runEvents : State → List Event → State × List (Event × Out)
  | st, [] => (st, [])
  | st, e :: es =>
    let (st', o) := step st e
    let (st'', os) := runEvents st' es
    (st'', (e, o) :: os)

end Yacl.Channel
