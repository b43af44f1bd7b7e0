import Verif.Channel.Model

/-
Model of the collective algorithms `yacl/link/algorithm/{barrier,broadcast,gather,allgather,scatter}.cc` on top of
`Context::SendAsyncInternal` / `Context::RecvInternal` (context.cc L247-L320).

Each party executes, for every collective call it makes, the sequence of channel operations the C++ function performs, one
at a time, interleaved arbitrarily with the other parties. Simplifications: channels deliver every sent message (C04, C09);
`RecvInternal` blocks forever instead of timing out; the collective event string (`NextId`, distinct per call: C14) is the
call number; statistics and tracing are not modelled; the vector overloads (which pack several buffers into one message)
are not modelled.
-/
namespace Yacl.Link
open Yacl.Channel (Bytes)

/-- context.cc L104-L106 `PrevRank`, `size_t` arithmetic. -/
def prevRank (W rank stride : Nat) : Nat := ((rank + 2 ^ 64 - stride % 2 ^ 64 + W) % 2 ^ 64) % W

/-- context.cc L108-L110 `NextRank`, `size_t` arithmetic. -/
def nextRank (W rank stride : Nat) : Nat := ((rank + stride) % 2 ^ 64) % W

/-- What a send transmits: a fixed buffer, or the current content of a local result slot. -/
inductive Payload where
  | const (v : Bytes)
  | slot (idx : Nat)
  deriving DecidableEq, Repr

/-- Channel-level operations of one party. `key` is the number of the collective call (its event string). -/
inductive Op where
  | call (key : Nat)                              -- the collective function is entered
  | assign (key idx : Nat) (v : Bytes)            -- result slot := local buffer
  | send (dst key : Nat) (p : Payload)            -- SendAsyncInternal(dst, event, p)
  | recv (src key idx : Nat)                      -- result slot := RecvInternal(src, event)
  | ret (key : Nat)                               -- the collective function returns
  | fail                                          -- YACL_ENFORCE fails
  deriving DecidableEq, Repr

/-- A collective call, with the inputs of all parties. -/
inductive Call where
  | barrier
  | bcast (root : Nat) (input : Nat → Bytes)
  | gather (root : Nat) (input : Nat → Bytes)
  | allgather (input : Nat → Bytes)
  | scatter (root : Nat) (inputs : Nat → List Bytes)

/-- barrier.cc L34-L39: the loop body from `offset` on. (The `0 < offset` guard only serves termination.) -/
def barrierOps (W rank key offset : Nat) : List Op :=
  if 0 < offset ∧ offset < W then
    Op.send (nextRank W rank offset) key (.const []) :: Op.recv (prevRank W rank offset) key 0 ::
      barrierOps W rank key (offset * 2)
  else []
termination_by W - offset

/-- broadcast.cc L28-L30 `RingOffset`. -/
def ringOffset (b e size : Nat) : Nat := ((e + 2 ^ 64 - b % 2 ^ 64 + size) % 2 ^ 64) % size

/-- `absl::bit_floor`. -/
def bitFloor (W : Nat) : Nat := if W = 0 then 0 else 2 ^ Nat.log2 W

/-- broadcast.cc L54-L69: the loop from `stride` on. -/
def bcastLoop (W rank vrank key stride : Nat) (received : Bool) : List Op :=
  if stride = 0 then []
  else if !received then
    if vrank % stride ≠ 0 then bcastLoop W rank vrank key (stride / 2) received
    else Op.recv (prevRank W rank stride) key 0 :: bcastLoop W rank vrank key (stride / 2) true
  else if vrank + stride < W then
    Op.send (nextRank W rank stride) key (.slot 0) :: bcastLoop W rank vrank key (stride / 2) received
  else bcastLoop W rank vrank key (stride / 2) received
termination_by stride

/-- broadcast.cc L34-L72. -/
def bcastOps (W rank key root : Nat) (input : Nat → Bytes) : List Op :=
  Op.assign key 0 (input rank) ::
    bcastLoop W rank (ringOffset root rank W) key (bitFloor W) (ringOffset root rank W == 0)

/-- gather.cc L37-L48. -/
def gatherOps (W rank key root : Nat) (input : Nat → Bytes) : List Op :=
  if root = rank then
    (List.range W).map fun idx => if idx = rank then Op.assign key idx (input rank) else Op.recv idx key idx
  else [Op.send root key (.const (input rank))]

/-- allgather.cc L35-L53. -/
def allgatherOps (W rank key : Nat) (input : Nat → Bytes) : List Op :=
  ((List.range W).filter (· ≠ rank)).map (fun idx => Op.send idx key (.const (input rank))) ++
  (List.range W).map fun idx => if idx = rank then Op.assign key idx (input rank) else Op.recv idx key idx

/-- scatter.cc L35-L50. -/
def scatterOps (W rank key root : Nat) (inputs : Nat → List Bytes) : List Op :=
  if root = rank then
    if (inputs rank).length = W then
      ((List.range W).filter (· ≠ rank)).map (fun idx => Op.send idx key (.const ((inputs rank).getD idx []))) ++
      [Op.assign key 0 ((inputs rank).getD root [])]
    else [Op.fail]
  else [Op.recv root key 0]

/-- Operations of one collective call. -/
def callBody (W rank key : Nat) : Call → List Op
  | .barrier => barrierOps W rank key 1
  | .bcast root input => bcastOps W rank key root input
  | .gather root input => gatherOps W rank key root input
  | .allgather input => allgatherOps W rank key input
  | .scatter root inputs => scatterOps W rank key root inputs

def callOps (W rank key : Nat) (c : Call) : List Op := Op.call key :: (callBody W rank key c ++ [Op.ret key])

/-- A party that makes the given collective calls one after the other, the first one having number `key`. -/
def script (W rank : Nat) : (key : Nat) → List Call → List Op
  | _, [] => []
  | key, c :: cs => callOps W rank key c ++ script W rank (key + 1) cs

/-- Result slots of one party: `slots key idx`. -/
abbrev Slots := Nat → Nat → Option Bytes

def Slots.set (s : Slots) (key idx : Nat) (v : Bytes) : Slots :=
  fun k i => if k = key ∧ i = idx then some v else s k i

/-- Global state of the parties and the channels; `mail src dst key` is the unread message of `src` for `dst`. -/
structure World where
  pc : Nat → Nat
  slots : Nat → Slots
  mail : Nat → Nat → Nat → Option Bytes

def World.init : World := ⟨fun _ => 0, fun _ _ _ => none, fun _ _ _ => none⟩

/-- Functional update. -/
def upd {α : Type} (f : Nat → α) (i : Nat) (v : α) : Nat → α := fun j => if j = i then v else f j

def updMail (m : Nat → Nat → Nat → Option Bytes) (a b k : Nat) (v : Option Bytes) : Nat → Nat → Nat → Option Bytes :=
  fun a' b' k' => if a' = a ∧ b' = b ∧ k' = k then v else m a' b' k'

/-- A message whose key is already waiting at the receiver is dropped (`emplace`, channel_mem.cc L64). -/
def emplaceMail (m : Nat → Nat → Nat → Option Bytes) (a b k : Nat) (v : Bytes) : Nat → Nat → Nat → Option Bytes :=
  if (m a b k).isSome then m else updMail m a b k (some v)

/-- Bytes a send transmits. -/
def payload (s : Slots) (key : Nat) : Payload → Option Bytes
  | .const v => some v
  | .slot idx => s key idx

/-- Execute one operation of party `r`; `none` when it cannot be executed (blocked, or an error: sending to oneself has no
channel, a destination out of range throws context.cc L250-L251, a failed ENFORCE). -/
def execOp (W : Nat) (st : World) (r : Nat) : Op → Option World
  | .call _ | .ret _ => some { st with pc := upd st.pc r (st.pc r + 1) }
  | .assign key idx v =>
    some { st with pc := upd st.pc r (st.pc r + 1), slots := upd st.slots r ((st.slots r).set key idx v) }
  | .send dst key p =>
    if dst < W ∧ dst ≠ r then
      match payload (st.slots r) key p with
      | none => none
      | some v =>
        some { st with pc := upd st.pc r (st.pc r + 1),
                       mail := emplaceMail st.mail r dst key v }
    else none
  | .recv src key idx =>
    if src < W ∧ src ≠ r then
      match st.mail src r key with
      | none => none
      | some v =>
        some { pc := upd st.pc r (st.pc r + 1), slots := upd st.slots r ((st.slots r).set key idx v),
               mail := updMail st.mail src r key none }
    else none
  | .fail => none

/-- Party `r < W` executes its next operation. -/
def stepParty (W : Nat) (prog : Nat → List Op) (st : World) (r : Nat) : Option World :=
  if r < W then
    match (prog r)[st.pc r]? with
    | none => none
    | some op => execOp W st r op
  else none

/-- All states reachable under any schedule. -/
inductive Reach (W : Nat) (prog : Nat → List Op) : World → Prop
  | init : Reach W prog World.init
  | step (st st' : World) (r : Nat) : Reach W prog st → stepParty W prog st r = some st' → Reach W prog st'

end Yacl.Link
