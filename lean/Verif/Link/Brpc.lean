/-
The brpc transport: link/transport/brpc_link.{h,cc}, the request format of interconnection_link.{h,cc}, and
the contexts factory_brpc.cc makes.  The receiving channel is the model of channel.cc (Verif.Channel.Model).
brpc itself appears as what may happen to one remote call.
-/
import Verif.Channel.Model
import Verif.Channel.SenderModel
import Mathlib.Data.Nat.Notation

namespace Yacl.Link.Brpc

open Yacl.Channel (Bytes Request State Out Event)
open Yacl.Channel.Sender (RetryOptions shouldRetry)

/-- `TransType` of the interconnection protocol; other numbers can be on the wire. -/
inductive TransType | mono | chunked | other (n : ℕ)
deriving DecidableEq, Repr

/-- `PushRequest` of the interconnection protocol. -/
structure PushRequest where
  senderRank : ℕ
  key : Bytes
  value : Bytes
  transType : TransType
  chunkOffset : ℕ
  messageLength : ℕ
deriving DecidableEq, Repr

/-- interconnection_link.cc L66-77 `PackMonoRequest`; unset fields are 0. -/
def packMono (selfRank : ℕ) (key value : Bytes) : PushRequest := ⟨selfRank, key, value, .mono, 0, 0⟩

/-- interconnection_link.cc L79-93 `PackChunkedRequest`. -/
def packChunked (selfRank : ℕ) (key value : Bytes) (offset total : ℕ) : PushRequest :=
  ⟨selfRank, key, value, .chunked, offset, total⟩

/-- channel.cc L281-319: what the channel hands to its link. -/
def pack (selfRank : ℕ) : Request → PushRequest
  | .mono k v => packMono selfRank k v
  | .chunk k v off total => packChunked selfRank k v off total

/-- channel.cc L779-795 with interconnection_link.cc L95-121 and L147-157: how `OnRequest` takes a request apart; `none` when it is neither. -/
def unpack (q : PushRequest) : Option Request :=
  if q.transType = .mono then some (.mono q.key q.value)
  else if q.transType = .chunked then some (.chunk q.key q.value q.chunkOffset q.messageLength)
  else none

/-- Error codes of the interconnection protocol used here. -/
inductive Code | ok | invalidRequest | unexpectedError
deriving DecidableEq, Repr

/-- A receiving channel: its abort flag and its state. -/
structure Chan where
  aborting : Bool
  st : State

/-- What a service call does: it fills a response, or an exception leaves it. -/
inductive Reply
  | code (c : Code)
  | threw
deriving DecidableEq, Repr

/-- channel.cc L769-796 `OnRequest`.  Writing outside a buffer (`ub`) is counted as leaving the function. -/
def onPush (c : Chan) (q : PushRequest) : Chan × Reply :=
  if c.aborting then (c, .threw)
  else match unpack q with
    | none => (c, .code .invalidRequest)
    | some r =>
      let x := Yacl.Channel.onRequest c.st r
      ({ c with st := x.1 }, match x.2 with
        | .thrown => .threw
        | .ub => .threw
        | _ => .code .ok)

/-- brpc_link.cc L37-38: the channels of one party by rank of the peer. -/
abbrev Server := ℕ → Option Chan

/-- Replace one entry. -/
def Server.set (s : Server) (r : ℕ) (c : Chan) : Server := fun x => if x = r then some c else s x

/-- brpc_link.cc L40-56 `Push`: dispatch by the rank in the request. -/
def push (s : Server) (q : PushRequest) : Server × Reply :=
  match s q.senderRank with
  | none => (s, .code .unexpectedError)
  | some c => (s.set q.senderRank (onPush c q).1, (onPush c q).2)

/-- What brpc does with a call: `code` and `http` are what the controller reports when it fails. -/
inductive Fate
  | requestLost (code http : ℕ)
  | responseLost (code http : ℕ)
  /-- The call reaches the peer and its answer comes back; the numbers are reported if the service throws. -/
  | answered (code http : ℕ)
deriving DecidableEq, Repr

/-- How `SendRequest` ends. -/
inductive Sent
  | ok
  /-- `LinkError` with its codes, brpc_link.cc L155-157. -/
  | linkError (code http : ℕ)
  /-- Another exception: the peer refused, brpc_link.cc L159-161. -/
  | peerError
deriving DecidableEq, Repr

/-- The servers of all parties. -/
abbrev World := ℕ → Server

def World.set (w : World) (j : ℕ) (s : Server) : World := fun x => if x = j then s else w x

/-- brpc_link.cc L142-162 `SendRequest` of the link from `i` to `j`. -/
def sendRequest (w : World) (i j : ℕ) (r : Request) : Fate → World × Sent
  | .requestLost c h => (w, .linkError c h)
  | .responseLost c h => (w.set j (push (w j) (pack i r)).1, .linkError c h)
  | .answered c h =>
    (w.set j (push (w j) (pack i r)).1, match (push (w j) (pack i r)).2 with
      | .threw => .linkError c h
      | .code .ok => .ok
      | .code _ => .peerError)

/-- How `SendRequestWithRetry` ends. -/
inductive Result
  | sent
  | failed (code http : ℕ)
  | peerError
  | aborted
deriving DecidableEq, Repr

/-- channel.cc L321-370 `SendRequestWithRetry` over this transport: `fates n` is what happens to attempt `n`,
`aborting n` the sender's abort flag before it; `left` retries remain.  Exceptions that are no `LinkError` leave
the loop. -/
def sendLoop (o : RetryOptions) (i j : ℕ) (r : Request) (fates : ℕ → Fate) (aborting : ℕ → Bool) :
    (left count : ℕ) → World → World × Result
  | left, count, w =>
    if aborting count then (w, .aborted)
    else match sendRequest w i j r (fates count) with
      | (w', .ok) => (w', .sent)
      | (w', .peerError) => (w', .peerError)
      | (w', .linkError c h) =>
        if !shouldRetry o c h then (w', .failed c h)
        else match left with
          | 0 => (w', .failed c h)
          | left' + 1 => sendLoop o i j r fates aborting left' (count + 1) w'

/-- factory_brpc.cc L30-77 `CreateContext`: a listener for every other rank; `none` when the rank is not in the world. -/
def createContext (n self : ℕ) : Option Server :=
  if self < n then some fun r => if r < n ∧ r ≠ self then some ⟨false, Yacl.Channel.State.init⟩ else none
  else none

/-! ### Options -/

/-- interconnection_link.h L41-46 `Options`; the numbers are `uint32_t`. -/
structure Options where
  timeoutMs : ℕ
  maxPayload : ℕ
  protocol : List Char
  connType : List Char
deriving DecidableEq, Repr

/-- interconnection_link.h L41-46 with brpc_link.h `GetDefaultOptions`. -/
def defaultOptions : Options := ⟨10 * 1000, 512 * 1024, "baidu_std".toList, "single".toList⟩

/-- interconnection_link.cc L157-191 `MakeOptions`; the second component is the process-wide flag
`h2_client_stream_window_size` afterwards. -/
def makeOptions (d : Options) (timeoutMs maxPayload : ℕ) (protocol connType : List Char) (window : ℕ) :
    Option (Options × ℕ) :=
  let o1 := { d with timeoutMs := if timeoutMs ≠ 0 then timeoutMs else d.timeoutMs,
                     maxPayload := if maxPayload ≠ 0 then maxPayload else d.maxPayload,
                     protocol := if protocol ≠ [] then protocol else d.protocol }
  let o2 := { o1 with connType := if connType ≠ [] then connType else o1.connType }
  if "h2".toList.isPrefixOf o2.protocol then
    if o2.maxPayload ≤ 4096 then none
    else if o2.maxPayload ≥ 2 ^ 31 - 1 then none
    else some ({ o2 with maxPayload := o2.maxPayload - 4096 }, o2.maxPayload)
  else some (o2, window)

/-- interconnection_link.h L55-57 `SetMaxBytesPerChunk`: a `size_t` stored in a `uint32_t`. -/
def Options.setMaxBytes (o : Options) (bytes : ℕ) : Options := { o with maxPayload := bytes % 2 ^ 32 }

/-! ### Histories of a world -/

/-- What can happen in a world of parties. -/
inductive Ev
  /-- One attempt of party `i` to send `r` to party `j`. -/
  | attempt (i j : ℕ) (r : Request) (f : Fate)
  /-- Party `j` calls `Recv` on its channel with `i`, or starts to close it. -/
  | user (j i : ℕ) (e : Event)
deriving DecidableEq, Repr

/-- A call of the user on a channel; the user does not inject requests. -/
def userStep (s : Server) (i : ℕ) (e : Event) : Server :=
  match s i with
  | none => s
  | some c => s.set i { c with st := (Yacl.Channel.step c.st e).1 }

def World.step (w : World) : Ev → World
  | .attempt i j r f => (sendRequest w i j r f).1
  | .user j i e => w.set j (userStep (w j) i e)

def World.run (w : World) (es : List Ev) : World := es.foldl World.step w

/-- The world right after all `n` parties have made their contexts. -/
def World.init (n : ℕ) : World := fun i => (createContext n i).getD fun _ => none

end Yacl.Link.Brpc
