import Verif.Channel.Model
import Verif.Link.CollectiveModel

/-! Model of message ids, child contexts and sub-worlds (yacl/link/context.{h,cc}). Strings are byte strings. -/
namespace Yacl.Link
open Yacl.Channel (Bytes decimal)

/-- yacl/link/context.h L330-332: `size_t counter_`, `std::map<P2PDirection, int> p2p_counter_`, `size_t child_counter_`;
`desc_.id` is the id of the context. The constructor (context.cc L83-87) sets all `p2p_counter_` to 0. -/
structure Ids where
  id : Bytes
  counter : Nat
  p2p : Nat → Nat → Nat
  child : Nat

/-- context.cc L66-90. -/
def Ids.new (id : Bytes) : Ids := ⟨id, 0, fun _ _ => 0, 0⟩

/-- Bytes of the literals `":"`, `":P2P-"`, `"->"`, `"-"`. -/
def sColon : Bytes := [58]
def sP2P : Bytes := [58, 80, 50, 80, 45]
def sArrow : Bytes := [45, 62]
def sDash : Bytes := [45]

/-- context.cc L401-403 `NextId`: `fmt::format("{}:{}", desc_.id, ++counter_)`, `size_t` counter. -/
def Ids.nextId (c : Ids) : Ids × Bytes :=
  let n := (c.counter + 1) % 2 ^ 64
  ({ c with counter := n }, c.id ++ sColon ++ decimal n)

/-- context.cc L405-409 `NextP2PId`: `fmt::format("{}:P2P-{}:{}->{}", id, ++p2p_counter_[{src, dst}], src, dst)`. The counter
is a (signed) `int`, so incrementing `2^31 - 1` is undefined behaviour: `none`. -/
def Ids.nextP2PId (c : Ids) (src dst : Nat) : Option (Ids × Bytes) :=
  if c.p2p src dst = 2 ^ 31 - 1 then none
  else
    let n := c.p2p src dst + 1
    some ({ c with p2p := fun s d => if s = src ∧ d = dst then n else c.p2p s d },
      c.id ++ sP2P ++ decimal n ++ sColon ++ decimal src ++ sArrow ++ decimal dst)

/-- One use of a context: a collective operation, or a P2P message from `src` to `dst`. -/
inductive Use where
  | collective
  | p2p (src dst : Nat)
deriving DecidableEq

/-- Id generated by one use. -/
def Ids.use (c : Ids) : Use → Option (Ids × Bytes)
  | .collective => some c.nextId
  | .p2p s d => c.nextP2PId s d

/-- The ids generated by a history of uses; `none` if undefined behaviour is reached. -/
def Ids.run (c : Ids) : List Use → Option (List Bytes)
  | [] => some []
  | u :: us =>
    match c.use u with
    | none => none
    | some (c', b) => (c'.run us).map (b :: ·)

/-- A child context is created either by `Spawn(id)` or by `SubWorld(id_suffix, …)`. -/
inductive Birth where
  | spawn (id : Bytes)
  | subWorld (suffix : Bytes)
deriving DecidableEq

/-- context.cc L338-354 `Spawn` and L382-384 `SubWorld`: the id of the child. -/
def Ids.birth (c : Ids) : Birth → Ids × Bytes
  | .spawn [] => ({ c with child := (c.child + 1) % 2 ^ 64 }, c.id ++ sDash ++ decimal c.child)
  | .spawn (x :: xs) => (c, c.id ++ sDash ++ (x :: xs))
  | .subWorld s => (c, c.id ++ sDash ++ s)

/-- Ids of the children created by a history of calls. -/
def Ids.births (c : Ids) : List Birth → List Bytes
  | [] => []
  | b :: bs => (c.birth b).2 :: (c.birth b).1.births bs

/-- Rank the parent's `party_rank_map` assigns to a party id: `party_rank_map[parties[i].id] = i`, so the last one wins
(context.cc L362-364). -/
def partyRank : List Bytes → Bytes → Option Nat
  | [], _ => none
  | p :: ps, x =>
    match partyRank ps x with
    | some i => some (i + 1)
    | none => if p = x then some 0 else none

/-- The loop L366-374: original ranks and the position at which `Rank()` was (last) seen. -/
def subWorldLoop (parties : List Bytes) (self : Nat) : List Bytes → List Nat → Nat → Option (List Nat × Nat)
  | [], orig, newRank => some (orig, newRank)
  | x :: xs, orig, newRank =>
    match partyRank parties x with
    | none => none
    | some i => subWorldLoop parties self xs (orig ++ [i]) (if i = self then orig.length else newRank)

/-- context.cc L356-399 `SubWorld`: `none` = exception. Returns the new rank and, for each new rank, the original rank (whose
party description and channel the new context uses). -/
def subWorld (parties : List Bytes) (self : Nat) (sub : List Bytes) : Option (Nat × List Nat) :=
  match subWorldLoop parties self sub [] sub.length with
  | none => none
  | some (orig, newRank) => if newRank = sub.length then none else some (newRank, orig)

end Yacl.Link
