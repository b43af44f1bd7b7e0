import Verif.SegmentTree.Model

/-
Two-party model of link shutdown: `Channel::WaitLinkTaskFinish` (channel.cc L731-L750) and its four steps
`StopReceivingAndAckUnreadMsgs` (L703-L713), `WaitForFinAndFlyingMsg` (L679-L701), `WaitAsyncSendToFinish` (L666-L671),
`WaitForFlyingAck` (L715-L729), together with message/ACK/FIN arrival (`OnMessage` L542-L562, `OnNormalMessage` L446-L474).

Simplifications: message contents and keys are dropped (only sequence ids matter here); a request that was issued can be
presented to the receiver at any later time and any number of times (retries), and the transport never gives up on it;
`WaitAsyncSendToFinish` is "every request this side issued has been presented to the peer" (the send tasks run
`SendRequestWithRetry` until success; giving up after max_retry is outside this model); a side that returned from shutdown
has closed its port, nothing is presented to it any more.
-/
namespace Yacl.Channel.Close
open SegmentTree

/-- Progress of one side through `WaitLinkTaskFinish`. -/
inductive Phase where
  | running    -- user code still sends and receives
  | stopped    -- after StopReceivingAndAckUnreadMsgs
  | finSent    -- FIN submitted (L680-L681), waiting for the peer's FIN and messages (L682-L700)
  | asyncWait  -- in WaitAsyncSendToFinish
  | ackWait    -- in WaitForFlyingAck
  | done       -- WaitLinkTaskFinish returned
  deriving DecidableEq, Repr

/-- One side of the channel. -/
structure Side where
  seq : Nat                 -- msg_seq_id_: messages sent so far are 1..seq
  received : Tree           -- received_msg_ids_
  unread : List Nat         -- sequence ids in recv_msgs_
  acksSent : List Nat       -- ids for which SendAck was called
  ackIds : Tree             -- received_ack_ids_
  finSent : Option Nat      -- value put into our FIN
  fin : Option Nat          -- received_fin_ / peer_sent_msg_count_
  phase : Phase

def Side.init : Side := ⟨0, empty, [], [], empty, none, none, .running⟩

/-- The joint state of both sides. -/
structure Joint where
  a : Side
  b : Side

def Joint.init : Joint := ⟨Side.init, Side.init⟩

/-- `waiting_finish_`. -/
def Side.waiting (s : Side) : Bool := s.phase != .running

/-- channel.cc L692-L697 / L723-L727 (negated loop conditions): ids `1..n` form the only segment. -/
def complete (t : Tree) (n : Nat) : Bool :=
  n == 0 || !(decide (segmentsCount t > 1) || !contains t 1 || !contains t n)

/-- Arrival of normal message `id` (L454-L473). -/
def Side.onMsg (s : Side) (id : Nat) : Side :=
  match insert s.received id with
  | (_, false) => s
  | (t, true) =>
    if s.waiting then { s with received := t, acksSent := id :: s.acksSent }
    else { s with received := t, unread := id :: s.unread }

/-- Arrival of an ACK (L544-L550). -/
def Side.onAck (s : Side) (id : Nat) : Side := { s with ackIds := (insert s.ackIds id).1 }

/-- Arrival of a FIN (L551-L558): only the first counts. -/
def Side.onFin (s : Side) (n : Nat) : Side :=
  match s.fin with
  | some _ => s
  | none => { s with fin := some n }

/-- Everything `s` has issued so far has been presented to `peer`. -/
def flushed (s peer : Side) : Prop :=
  (∀ id, 1 ≤ id → id ≤ s.seq → contains peer.received id = true) ∧
  (∀ id ∈ s.acksSent, contains peer.ackIds id = true) ∧
  (s.finSent.isSome → peer.fin.isSome)

/-- Steps of side `s` with peer `p`: `Act s p s'` means side `s` may become `s'` (the peer is unchanged: everything a side
issues is derived from its own state). -/
inductive Act : Side → Side → Side → Prop
  /-- user sends (SendAsync etc., only before shutdown) -/
  | userSend (s p : Side) : s.phase = .running → s.seq + 1 < 2 ^ 64 - 1 → Act s p { s with seq := s.seq + 1 }
  /-- user receives message `id` and the ACK is issued (Recv L434) -/
  | userRecv (s p : Side) (id : Nat) : s.phase = .running → id ∈ s.unread →
      Act s p { s with unread := s.unread.erase id, acksSent := id :: s.acksSent }
  /-- a message of the peer is presented (possibly again) -/
  | msg (s p : Side) (id : Nat) : s.phase ≠ .done → 1 ≤ id → id ≤ p.seq → Act s p (s.onMsg id)
  /-- an ACK of the peer is presented (possibly again) -/
  | ack (s p : Side) (id : Nat) : s.phase ≠ .done → id ∈ p.acksSent → Act s p (s.onAck id)
  /-- the FIN of the peer is presented (possibly again) -/
  | fin (s p : Side) (n : Nat) : s.phase ≠ .done → p.finSent = some n → Act s p (s.onFin n)
  /-- StopReceivingAndAckUnreadMsgs L703-L713 -/
  | stop (s p : Side) : s.phase = .running →
      Act s p { s with phase := .stopped, acksSent := s.unread ++ s.acksSent, unread := [] }
  /-- L680-L681 -/
  | sendFin (s p : Side) : s.phase = .stopped → Act s p { s with phase := .finSent, finSent := some s.seq }
  /-- L682-L700 -/
  | gotAll (s p : Side) (n : Nat) : s.phase = .finSent → s.fin = some n → complete s.received n = true →
      Act s p { s with phase := .asyncWait }
  /-- L666-L671 -/
  | asyncDone (s p : Side) : s.phase = .asyncWait → flushed s p → Act s p { s with phase := .ackWait }
  /-- L715-L729 -/
  | acked (s p : Side) : s.phase = .ackWait → complete s.ackIds s.seq = true → Act s p { s with phase := .done }

/-- One step of the joint system. -/
inductive Step : Joint → Joint → Prop
  | left (j : Joint) (s' : Side) : Act j.a j.b s' → Step j ⟨s', j.b⟩
  | right (j : Joint) (s' : Side) : Act j.b j.a s' → Step j ⟨j.a, s'⟩

/-- States reachable from the initial one by any schedule. -/
inductive Reachable : Joint → Prop
  | init : Reachable Joint.init
  | step (j j' : Joint) : Reachable j → Step j j' → Reachable j'

end Yacl.Channel.Close
