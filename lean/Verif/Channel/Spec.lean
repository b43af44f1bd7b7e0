import Verif.Channel.Model

/-! Specification vocabulary for exactly-once delivery (C04, C05): what a well-behaved peer puts on the wire. -/
namespace Yacl.Channel.Spec
open Yacl.Channel

/-- What the peer's user passed to `Send`/`SendAsync`, in call order: the `i`-th entry is the key and the bytes of the
message with sequence number `i + 1`. -/
abbrev SentLog := List (Bytes × Bytes)

/-- The peer respects the documented contract: keys are legal and not reused (channel.h: "SendAsync is not reentrant with same
key"), fewer than `2^64 - 1` messages, each shorter than `2^64` bytes. -/
structure WellBehaved (S : SentLog) : Prop where
  legal : ∀ e ∈ S, keyAccepted e.1 = true
  distinct : (S.map (·.1)).Nodup
  few : S.length < 2 ^ 64 - 1
  short : ∀ e ∈ S, e.2.length < 2 ^ 64

/-- Requests the transport may present for the `i`-th message (in any order, any number of times). -/
def wireRequests (per : Nat) (i : Nat) (e : Bytes × Bytes) : List Request :=
  sendImpl per (buildChannelKey e.1 (i + 1)) e.2

/-- A request produced by the well-behaved peer: part of a message, an ACK or a FIN. -/
inductive FromPeer (S : SentLog) (per : Nat) : Request → Prop
  | msg (i : Nat) (e : Bytes × Bytes) (r : Request) : S[i]? = some e → r ∈ wireRequests per i e → FromPeer S per r
  | ack (n : Nat) : n < 2 ^ 64 → FromPeer S per (.mono kAckKey (decimal n))
  | fin (n : Nat) : n < 2 ^ 64 → FromPeer S per (.mono kFinKey (decimal n))

/-- Histories in which all requests come from the well-behaved peer; `Recv` and shutdown may happen at any point. -/
def HonestHistory (S : SentLog) (per : Nat) (es : List Event) : Prop :=
  ∀ r, Event.request r ∈ es → FromPeer S per r

/-- Successful `Recv` results of a history, in order: (key, bytes). -/
def received (log : List (Event × Out)) : List (Bytes × Value) :=
  log.filterMap fun x => match x with
    | (.recv k, .value v) => some (k, v)
    | _ => none

end Yacl.Channel.Spec
