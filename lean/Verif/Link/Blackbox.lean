/-
The black-box transport of a link: brpc_blackbox_link.{h,cc}, interconnection_link.cc,
factory_brpc_blackbox.cc and the queueing service it talks to
(blackbox_interconnect/blackbox_dummy_service_impl.cc).  HTTP and protobuf appear as what they
answer; party names, node names and topics are lists of characters.
-/
import Mathlib.Data.List.Basic
import Mathlib.Data.List.Sort
import Mathlib.Data.List.Nodup
import Mathlib.Order.Lex
import Mathlib.Data.List.Lex

namespace Yacl.Link.Blackbox

abbrev Str := List Char

/-! ### Topics -/

/-- `send_topic_` (brpc_blackbox_link.cc L224). -/
def sendTopic (self peer : Str) : Str := self ++ ['-'] ++ peer

/-- `recv_topic_` (brpc_blackbox_link.cc L225). -/
def recvTopic (self peer : Str) : Str := peer ++ ['-'] ++ self

/-! ### The queueing service -/

/-- The queues of one node (blackbox_dummy_service_impl.h `recv_msgs_`). -/
abbrev Queues (M : Type) := Str → List M

/-- What happens at a node: a message arrives (`OnInvoke`), or a party asks for one (`OnPop`);
    `reply` says whether the answer to the pop gets through to the party. -/
inductive Ev (M : Type) where
  | invoke (topic : Str) (m : M)
  | pop (topic : Str) (reply : Bool)

variable {M : Type}

/-- `OnInvoke` (blackbox_dummy_service_impl.cc L55-61) and `OnPop` (L120-138): the queues, and
    the message handed to the party that asked, with its topic. -/
def serve (q : Queues M) : Ev M → Queues M × Option (Str × M)
  | .invoke t m => (fun t' => if t' = t then q t ++ [m] else q t', none)
  | .pop t reply =>
    match q t with
    | [] => (q, none)
    | m :: rest => (fun t' => if t' = t then rest else q t', if reply then some (t, m) else none)

/-- A history: the queues at the end and the messages delivered, in order. -/
def serveAll (q : Queues M) : List (Ev M) → Queues M × List (Str × M)
  | [] => (q, [])
  | e :: es =>
    let r := serve q e
    let s := serveAll r.1 es
    (s.1, r.2.toList ++ s.2)

/-- The messages that arrived for a topic. -/
def arrived (t : Str) : List (Ev M) → List M
  | [] => []
  | .invoke t' m :: es => if t' = t then m :: arrived t es else arrived t es
  | .pop _ _ :: es => arrived t es

/-- The messages delivered for a topic. -/
def delivered (t : Str) (l : List (Str × M)) : List M := (l.filter fun x => x.1 = t).map Prod.snd

/-! ### Sending -/

/-- The service's answer to a push: the call failed, the answer does not parse, or it carries
    a code. -/
inductive Reply where
  | failed
  | garbled
  | code (c : Str)
deriving DecidableEq

/-- `blackbox_interconnect::error_code::Code` for the codes used
    (blackbox_service_errorcode.h L23-47). -/
def codeOk : Str := "E0000000000".toList
def codeQueueFull : Str := "E0000000700".toList
def codeNotFound : Str := "E0000000404".toList

inductive SendRes where
  /-- returned after that many pushes -/
  | ok (pushes : Nat)
  | throws (pushes : Nat)
  /-- still pushing when the answers run out -/
  | waiting (pushes : Nat)
deriving DecidableEq

/-- `BrpcBlackBoxLink::SendRequest` (brpc_blackbox_link.cc L248-289), given the answers of the
    service. -/
def sendLoop : Nat → List Reply → SendRes
  | pushs, [] => .waiting pushs
  | pushs, r :: rs =>
    let pushs := pushs + 1
    match r with
    | .failed => .throws pushs
    | .garbled => .throws pushs
    | .code c =>
      if c = codeOk then .ok pushs
      else if c ≠ codeQueueFull then .throws pushs
      else sendLoop pushs rs

/-! ### Receiving -/

/-- The answer to a pop: the call failed, or its parts: does it parse, its code and payload. -/
inductive PopReply where
  | failed
  | garbled
  | answer (code : Str) (payload : List Nat)

/-- `BrpcBlackBoxLink::TryReceive` (brpc_blackbox_link.cc L108-149); `parse` reads a request
    from bytes. -/
def tryReceive {R : Type} (parse : List Nat → Option R) : PopReply → Option R
  | .failed => none
  | .garbled => none
  | .answer code payload =>
    if code = codeNotFound ∨ payload = [] then none
    else if code ≠ codeOk then none
    else parse payload

/-! ### Starting and stopping the receiver thread -/

/-- The receiver thread: created but not yet at `StartReceive`, at the test of the loop, inside
    the loop, finished (brpc_blackbox_link.cc L80-98). -/
inductive Thread | created | test | body | done
deriving DecidableEq

/-- The thread that calls `Stop`: not yet, past `StopReceive` and in `join`, returned
    (brpc_blackbox_link.cc L64-73). -/
inductive Stopper | before | joining | returned
deriving DecidableEq

/-- One listener: the flag `is_recv_` and the two threads. -/
structure Loop where
  recv : Bool
  thread : Thread
  stopper : Stopper
deriving DecidableEq

/-- After `Start` (L75-100): the thread exists. -/
def Loop.init : Loop := ⟨false, .created, .before⟩

/-- The steps of both threads. -/
inductive Step : Loop → Loop → Prop where
  /-- `StartReceive` (L83, L102) -/
  | start (l : Loop) : l.thread = .created → Step l { l with recv := true, thread := .test }
  /-- `CanReceive` is true (L84, L104) -/
  | enter (l : Loop) : l.thread = .test → l.recv = true → Step l { l with thread := .body }
  /-- `CanReceive` is false (L84) -/
  | leave (l : Loop) : l.thread = .test → l.recv = false → Step l { l with thread := .done }
  /-- a pop and its handling (L85-95) -/
  | work (l : Loop) : l.thread = .body → Step l { l with thread := .test }
  /-- `StopReceive` (L66, L106) -/
  | stop (l : Loop) : l.stopper = .before → Step l { l with recv := false, stopper := .joining }
  /-- `join` returns (L70) -/
  | join (l : Loop) : l.stopper = .joining → l.thread = .done → Step l { l with stopper := .returned }

/-- Any number of steps. -/
inductive Steps : Loop → Loop → Prop where
  | refl (l : Loop) : Steps l l
  | step {a b c : Loop} : Steps a b → Step b c → Steps a c

/-! ### Parties from the environment -/

/-- `absl::StrSplit(s, '=')` (factory_brpc_blackbox.cc L48). -/
def splitEq : Str → List Str
  | [] => [[]]
  | c :: cs =>
    if c = '=' then [] :: splitEq cs
    else
      match splitEq cs with
      | [] => [[c]]
      | w :: ws => (c :: w) :: ws

/-- `config.node_id.` (L42). -/
def nodePrefix : Str := "config.node_id.".toList

/-- `config.self_role` (L43). -/
def selfKey : Str := "config.self_role".toList

/-- `absl::StrReplaceAll(k, {{"config.node_id.", ""}})` (L52): every occurrence goes, from left
    to right; `fuel` is the length. -/
def eraseAll : Nat → Str → Str
  | 0, s => s
  | _ + 1, [] => []
  | fuel + 1, c :: cs =>
    if nodePrefix.isPrefixOf (c :: cs) then eraseAll fuel ((c :: cs).drop nodePrefix.length)
    else c :: eraseAll fuel cs

/-- Insertion into a `std::map` that does not hold the key, by key order. -/
def insertParty (k v : Str) : List (Str × Str) → List (Str × Str)
  | [] => [(k, v)]
  | p :: ps => if k < p.1 then (k, v) :: p :: ps else p :: insertParty k v ps

/-- One variable of the environment (L47-63); `none` is an exception. -/
def envStep (st : List (Str × Str) × Str) (env : Str) : Option (List (Str × Str) × Str) :=
  match splitEq env with
  | [] => none
  | k :: vs =>
    if nodePrefix.isPrefixOf k then
      match vs with
      | [v] =>
        let id := eraseAll k.length k
        if id ∈ st.1.map Prod.fst then none else some (insertParty id v st.1, st.2)
      | _ => none
    else if selfKey.isPrefixOf k then
      match vs with
      | [v] => if st.2 = [] then some (st.1, v) else none
      | _ => none
    else some st

/-- `GetPartyNodeInfoFromEnv` (L40-71): the parties and the own rank. -/
def partiesFromEnv (env : List Str) : Option (List (Str × Str) × Nat) :=
  (env.foldlM envStep ([], [])).bind fun st =>
    if st.2 ∈ st.1.map Prod.fst then some (st.1, (st.1.map Prod.fst).idxOf st.2) else none

/-! ### Options -/

/-- `InterconnectionLink::Options`; the connection type is left out. -/
structure Opts where
  timeoutMs : Nat
  payload : Nat
  protocol : Str
deriving DecidableEq

/-- `InterconnectionLink::MakeOptions` (interconnection_link.cc L157-191): the options and the
    new value of brpc's window flag, if it is set. -/
def makeOptions (dflt : Opts) (timeoutMs payload : Nat) (protocol : Str) : Option (Opts × Option Nat) :=
  let o := dflt
  let o := if timeoutMs ≠ 0 then { o with timeoutMs := timeoutMs } else o
  let o := if payload ≠ 0 then { o with payload := payload } else o
  let o := if protocol ≠ [] then { o with protocol := protocol } else o
  if "h2".toList.isPrefixOf o.protocol then
    if ¬ o.payload > 4096 then none
    else if ¬ o.payload < 2 ^ 31 - 1 then none
    else some ({ o with payload := o.payload - 4096 }, some o.payload)
  else some (o, none)

/-- The fields of `ContextDesc` handed to a channel. -/
structure ChanDesc where
  exitIfAsyncError : Bool
  disableMsgSeqId : Bool
deriving DecidableEq

/-- `FactoryBrpc::CreateContext` (factory_brpc.cc L65-69). -/
def brpcChannel (d : ChanDesc) : ChanDesc := d

/-- `FactoryBrpcBlackBox::CreateContext` (factory_brpc_blackbox.cc L105-107): the first flag is a
    constant, the second is not set (default false, channel.h). -/
def blackboxChannel (_ : ChanDesc) : ChanDesc := ⟨false, false⟩

/-! ### Properties: topics and queues -/

/-- C113 (a): what one party sends to another is what the other one asks for. -/
theorem C113_topic_match (a b : Str) : sendTopic a b = recvTopic b a := rfl

/-- C113 (b): among parties without a hyphen in their names, different pairs have different
    topics. -/
theorem C113_topic_distinct_partial (a b a' b' : Str) (ha : '-' ∉ a) (ha' : '-' ∉ a')
    (h : sendTopic a b = sendTopic a' b') : a = a' ∧ b = b' := by
  unfold sendTopic at h
  rw [List.append_assoc, List.append_assoc] at h
  induction a generalizing a' with
  | nil =>
    cases a' with
    | nil => simpa using h
    | cons c cs =>
      simp only [List.nil_append, List.cons_append, List.cons.injEq] at h
      exact absurd (by rw [← h.1]; exact List.mem_cons_self) ha'
  | cons x xs ih =>
    cases a' with
    | nil =>
      simp only [List.nil_append, List.cons_append, List.cons.injEq] at h
      exact absurd (by rw [h.1]; exact List.mem_cons_self) ha
    | cons c cs =>
      simp only [List.cons_append, List.cons.injEq] at h
      obtain ⟨e1, e2⟩ := ih cs (fun hm => ha (List.mem_cons_of_mem _ hm))
        (fun hm => ha' (List.mem_cons_of_mem _ hm)) h.2
      exact ⟨by rw [h.1, e1], e2⟩

/-- ... with hyphens two pairs of four different parties can share a topic, and so a queue if
    the two receivers share a node. -/
theorem C113_topic_distinct_violated :
    ∃ a b a' b' : Str, [a, b, a', b'].Nodup ∧ sendTopic a b = sendTopic a' b' :=
  ⟨"a-b".toList, "c".toList, "a".toList, "b-c".toList, by decide, by decide⟩

theorem serveAll_spec (t : Str) (es : List (Ev M)) : ∀ q : Queues M,
    (∀ e ∈ es, ∀ t' r, e = .pop t' r → t' = t → r = true) →
    delivered t (serveAll q es).2 ++ (serveAll q es).1 t = q t ++ arrived t es := by
  induction es with
  | nil => intro q _; simp [serveAll, delivered, arrived]
  | cons e es ih =>
    intro q hq
    have ih' := ih (serve q e).1 (fun e' he' => hq e' (List.mem_cons_of_mem _ he'))
    simp only [serveAll]
    cases e with
    | invoke t' m =>
      simp only [serve, Option.toList_none, List.nil_append] at ih' ⊢
      rw [ih']
      by_cases ht : t' = t
      · subst ht
        simp [arrived]
      · have : ¬ t = t' := fun h => ht h.symm
        simp [arrived, ht, this]
    | pop t' r =>
      have hr := hq _ List.mem_cons_self t' r rfl
      simp only [serve] at ih' ⊢
      cases hqt : q t' with
      | nil =>
        simp only [hqt, Option.toList_none, List.nil_append] at ih' ⊢
        rw [ih']; simp [arrived]
      | cons m rest =>
        simp only [hqt] at ih' ⊢
        by_cases ht : t' = t
        · subst ht
          have hrt := hr rfl
          subst hrt
          simp only [if_true] at ih' ⊢
          rw [show delivered t' ((some (t', m)).toList ++ (serveAll (fun t'_1 => if t'_1 = t' then rest else q t'_1) es).2)
            = m :: delivered t' (serveAll (fun t'_1 => if t'_1 = t' then rest else q t'_1) es).2 by
              simp [delivered]]
          rw [List.cons_append, ih', hqt]
          simp [arrived]
        · have h2 : ¬ t = t' := fun h => ht h.symm
          simp only [if_neg h2] at ih'
          have : delivered t ((if r = true then some (t', m) else none).toList ++
              (serveAll (fun t'_1 => if t'_1 = t' then rest else q t'_1) es).2)
              = delivered t (serveAll (fun t'_1 => if t'_1 = t' then rest else q t'_1) es).2 := by
            cases r <;> simp [delivered, ht]
          rw [this, ih']
          simp [arrived]

/-- C113 (c): as long as the answers to a party's pops get through, the messages of a topic are
    delivered once each, in the order of their arrival, and none from another topic; the rest
    waits in the queue.  Pops and arrivals of other topics may be mixed in at will. -/
theorem C113_queue_partial (t : Str) (es : List (Ev M))
    (h : ∀ e ∈ es, ∀ t' r, e = .pop t' r → t' = t → r = true) :
    delivered t (serveAll (fun _ => []) es).2 ++ (serveAll (fun _ => []) es).1 t = arrived t es := by
  simpa using serveAll_spec t es (fun _ => []) h

/-- ... but a message whose answer is lost on the way (a timeout of the pop is enough) is gone:
    the sender's push was accepted and no later pop brings it back. -/
theorem C113_queue_violated (t : Str) (m : M) (later : List (Ev M))
    (hl : arrived t later = []) :
    delivered t (serveAll (fun _ => []) (.invoke t m :: .pop t false :: later)).2 = [] := by
  have hempty : ∀ (es : List (Ev M)) (q : Queues M), q t = [] → arrived t es = [] →
      delivered t (serveAll q es).2 = [] := by
    intro es
    induction es with
    | nil => intro q _ _; rfl
    | cons e es ih =>
      intro q hq ha
      cases e with
      | invoke t' m' =>
        simp only [arrived] at ha
        by_cases ht : t' = t
        · simp [ht] at ha
        · rw [if_neg ht] at ha
          have h2 : ¬ t = t' := fun h => ht h.symm
          simp only [serveAll, serve, Option.toList_none, List.nil_append]
          exact ih _ (by simp [h2, hq]) ha
      | pop t' r =>
        simp only [arrived] at ha
        simp only [serveAll, serve]
        cases hqt : q t' with
        | nil => simp only [Option.toList_none, List.nil_append]; exact ih q hq ha
        | cons m' rest =>
          have ht : ¬ t' = t := by rintro rfl; rw [hq] at hqt; cases hqt
          have h2 : ¬ t = t' := fun h => ht h.symm
          have := ih (fun t'' => if t'' = t' then rest else q t'') (by simp [h2, hq]) ha
          simp only
          cases r
          · simpa using this
          · simpa [delivered, ht] using this
  simp only [serveAll, serve, if_true, List.nil_append, Option.toList_none]
  exact hempty later _ (by simp) hl

example : delivered "x".toList (serveAll (fun _ => []) [.invoke "x".toList 1, .invoke "y".toList 2,
    .pop "y".toList true, .invoke "x".toList 3, .pop "x".toList true, .pop "z".toList true]).2 = [1] := by
  decide +kernel

/-! ### Properties: sending and receiving -/

/-- C113 (d): a send returns exactly when some answer is "OK" after nothing but "queue full", it
    throws exactly when another failure comes first, and it goes on as long as the queue stays
    full, without bound.  The number of pushes is one more than the number of "queue full". -/
theorem C113_send (rs : List Reply) (n : Nat) :
    (sendLoop 0 rs = .ok n ↔ ∃ k rest, n = k + 1 ∧
      rs = List.replicate k (.code codeQueueFull) ++ .code codeOk :: rest) ∧
    (sendLoop 0 rs = .throws n ↔ ∃ k rest r, n = k + 1 ∧ r ≠ .code codeQueueFull ∧ r ≠ .code codeOk ∧
      rs = List.replicate k (.code codeQueueFull) ++ r :: rest) ∧
    (sendLoop 0 rs = .waiting n ↔ rs = List.replicate n (.code codeQueueFull)) := by
  have hne : codeQueueFull ≠ codeOk := by decide
  have key : ∀ (rs : List Reply) (p : Nat),
      (∃ k, rs = List.replicate k (.code codeQueueFull) ∧ sendLoop p rs = .waiting (p + k)) ∨
      (∃ k rest, rs = List.replicate k (.code codeQueueFull) ++ .code codeOk :: rest ∧
        sendLoop p rs = .ok (p + k + 1)) ∨
      (∃ k rest r, r ≠ .code codeQueueFull ∧ r ≠ .code codeOk ∧
        rs = List.replicate k (.code codeQueueFull) ++ r :: rest ∧ sendLoop p rs = .throws (p + k + 1)) := by
    intro rs
    induction rs with
    | nil => intro p; exact Or.inl ⟨0, rfl, rfl⟩
    | cons r rs ih =>
      intro p
      by_cases h1 : r = .code codeOk
      · subst h1
        exact Or.inr (Or.inl ⟨0, rs, rfl, by simp [sendLoop]⟩)
      · by_cases h2 : r = .code codeQueueFull
        · subst h2
          have e : sendLoop p (.code codeQueueFull :: rs) = sendLoop (p + 1) rs := by
            simp [sendLoop, hne]
          rcases ih (p + 1) with ⟨k, a, b⟩ | ⟨k, rest, a, b⟩ | ⟨k, rest, r, n1, n2, a, b⟩
          · exact Or.inl ⟨k + 1, by rw [List.replicate_succ, a], by rw [e, b]; congr 1; omega⟩
          · exact Or.inr (Or.inl ⟨k + 1, rest, by rw [List.replicate_succ, a]; rfl, by rw [e, b]; congr 1; omega⟩)
          · exact Or.inr (Or.inr ⟨k + 1, rest, r, n1, n2, by rw [List.replicate_succ, a]; rfl,
              by rw [e, b]; congr 1; omega⟩)
        · refine Or.inr (Or.inr ⟨0, rs, r, h2, h1, rfl, ?_⟩)
          cases r with
          | failed => rfl
          | garbled => rfl
          | code c =>
            have c1 : c ≠ codeOk := fun h => h1 (by rw [h])
            have c2 : c ≠ codeQueueFull := fun h => h2 (by rw [h])
            simp [sendLoop, c1, c2]
  -- the three shapes exclude one another
  have hrep : ∀ (k k' : Nat) (r r' : Reply) (rest rest' : List Reply), r ≠ .code codeQueueFull →
      r' ≠ .code codeQueueFull →
      List.replicate k (.code codeQueueFull) ++ r :: rest = List.replicate k' (.code codeQueueFull) ++ r' :: rest' →
      k = k' ∧ r = r' := by
    intro k
    induction k with
    | zero =>
      intro k' r r' rest rest' h1 h2 h
      cases k' with
      | zero => simp at h; exact ⟨rfl, h.1⟩
      | succ k' => rw [List.replicate_succ] at h; simp at h; exact absurd h.1 h1
    | succ k ih =>
      intro k' r r' rest rest' h1 h2 h
      cases k' with
      | zero => rw [List.replicate_succ] at h; simp at h; exact absurd h.1.symm h2
      | succ k' =>
        rw [List.replicate_succ, List.replicate_succ] at h
        simp only [List.cons_append, List.cons.injEq, true_and] at h
        obtain ⟨a, b⟩ := ih k' r r' rest rest' h1 h2 h
        exact ⟨by omega, b⟩
  have hrep2 : ∀ (k k' : Nat) (r : Reply) (rest : List Reply), r ≠ .code codeQueueFull →
      List.replicate k' (.code codeQueueFull) ≠ List.replicate k (.code codeQueueFull) ++ r :: rest := by
    intro k k' r rest h1 h
    have : r ∈ List.replicate k' (Reply.code codeQueueFull) := by rw [h]; simp
    exact h1 (List.mem_replicate.1 this).2
  have hq : (Reply.code codeOk) ≠ .code codeQueueFull := by simp [hne.symm]
  rcases key rs 0 with ⟨k, a, b⟩ | ⟨k, rest, a, b⟩ | ⟨k, rest, r, n1, n2, a, b⟩
  · rw [b]
    refine ⟨⟨fun h => (by cases h), ?_⟩, ⟨fun h => (by cases h), ?_⟩, ?_⟩
    · rintro ⟨k', rest, -, h⟩
      exact absurd (a.symm.trans h) (hrep2 _ _ _ _ hq)
    · rintro ⟨k', rest, r, -, h1, -, h⟩
      exact absurd (a.symm.trans h) (hrep2 _ _ _ _ h1)
    · constructor
      · intro h; cases h; rw [a]; congr 1; omega
      · intro h
        rw [a] at h
        have := congrArg List.length h
        simp only [List.length_replicate] at this
        rw [this]; congr 1; omega
  · rw [b]
    refine ⟨⟨fun h => ?_, ?_⟩, ⟨fun h => (by cases h), ?_⟩, ⟨fun h => (by cases h), ?_⟩⟩
    · cases h; exact ⟨k, rest, by omega, a⟩
    · rintro ⟨k', rest', hn, h⟩
      have := (hrep _ _ _ _ _ _ hq hq (a.symm.trans h)).1
      rw [hn, this]; congr 1; omega
    · rintro ⟨k', rest', r, -, h1, h2, h⟩
      exact absurd (hrep _ _ _ _ _ _ hq h1 (a.symm.trans h)).2.symm h2
    · intro h
      exact absurd (h.symm.trans a) (hrep2 _ _ _ _ hq)
  · rw [b]
    refine ⟨⟨fun h => (by cases h), ?_⟩, ⟨fun h => ?_, ?_⟩, ⟨fun h => (by cases h), ?_⟩⟩
    · rintro ⟨k', rest', -, h⟩
      exact absurd (hrep _ _ _ _ _ _ n1 hq (a.symm.trans h)).2 n2
    · cases h; exact ⟨k, rest, r, by omega, n1, n2, a⟩
    · rintro ⟨k', rest', r', hn, h1, h2, h⟩
      have := (hrep _ _ _ _ _ _ n1 h1 (a.symm.trans h)).1
      rw [hn, this]; congr 1; omega
    · intro h
      exact absurd (h.symm.trans a) (hrep2 _ _ _ _ n1)

/-- C113 (e): a request comes out of a pop exactly when the call and the outer parse succeed, the
    code is "OK", the payload is not empty and parses. -/
theorem C113_receive {R : Type} (parse : List Nat → Option R) (p : PopReply) (r : R) :
    tryReceive parse p = some r ↔ ∃ payload, p = .answer codeOk payload ∧ payload ≠ [] ∧ parse payload = some r := by
  have hne : codeOk ≠ codeNotFound := by decide
  cases p with
  | failed => simp [tryReceive]
  | garbled => simp [tryReceive]
  | answer c pl =>
    simp only [tryReceive]
    constructor
    · intro h
      split_ifs at h with h1 h2
      have hc : c = codeOk := by simpa using h2
      exact ⟨pl, by rw [hc], fun hp => h1 (Or.inr hp), h⟩
    · rintro ⟨pl', h1, h2, h3⟩
      cases h1
      rw [if_neg (by simp [hne, h2]), if_neg (by simp), h3]

example : sendLoop 0 [.code codeQueueFull, .code codeQueueFull, .code codeOk, .failed] = .ok 3 ∧
    sendLoop 0 [.code codeQueueFull, .garbled] = .throws 2 ∧
    tryReceive (fun b => some b.length) (.answer codeOk [1, 2]) = some 2 := by decide

/-! ### Properties: starting and stopping -/

theorem Steps.trans {a b c : Loop} (h : Steps a b) (h' : Steps b c) : Steps a c := by
  induction h' with
  | refl => exact h
  | step _ s ih => exact Steps.step ih s

/-- C113 (f): if `Stop` is called before the new thread has come to run, the thread sets the flag
    again and never ends: from then on, whatever happens, `Stop` does not return. -/
theorem C113_stop_violated :
    ∃ l, Steps Loop.init l ∧ ∀ l', Steps l l' → l'.stopper = .joining ∧ l'.thread ≠ .done := by
  refine ⟨⟨true, .test, .joining⟩, ?_, ?_⟩
  · exact Steps.step (Steps.step (Steps.refl _) (Step.stop _ rfl)) (Step.start _ rfl)
  · intro l' h
    have key : ∀ a l', Steps a l' → (a.recv = true ∧ (a.thread = .test ∨ a.thread = .body) ∧ a.stopper = .joining) →
        (l'.recv = true ∧ (l'.thread = .test ∨ l'.thread = .body) ∧ l'.stopper = .joining) := by
      intro a l' h ha
      induction h with
      | refl => exact ha
      | step _ s ih =>
        obtain ⟨i1, i2, i3⟩ := ih
        cases s with
        | start h => rw [h] at i2; simp at i2
        | enter h h' => exact ⟨i1, Or.inr rfl, i3⟩
        | leave h h' => rw [i1] at h'; cases h'
        | work h => exact ⟨i1, Or.inl rfl, i3⟩
        | stop h => rw [i3] at h; cases h
        | join h h' => rw [h'] at i2; simp at i2
    obtain ⟨-, h2, h3⟩ := key _ _ h ⟨rfl, Or.inl rfl, rfl⟩
    exact ⟨h3, by rcases h2 with h2 | h2 <;> rw [h2] <;> decide⟩

/-- C113 (g): if the thread has started before `Stop` is called, then from every later state
    `Stop` can return, the flag stays down, and the thread takes at most two more steps. -/
theorem C113_stop_partial (l l₁ l' : Loop) (_h0 : Steps Loop.init l) (ht : l.thread ≠ .created)
    (hs : l.stopper = .before) (hstop : Step l l₁) (hj : l₁.stopper = .joining) (h : Steps l₁ l') :
    l'.recv = false ∧
    (l'.stopper = .returned ∨
      ∃ l'', Steps l' l'' ∧ l''.stopper = .returned) ∧
    (l'.thread = .test → ∀ x, Step l' x → x.thread = .done) ∧
    (l'.thread = .body → ∀ x, Step l' x → x.thread = .test) := by
  have key : ∀ a l', Steps a l' → (a.recv = false ∧ a.thread ≠ .created ∧ a.stopper = .joining) →
      (l'.recv = false ∧ l'.thread ≠ .created ∧
        (l'.stopper = .joining ∨ (l'.stopper = .returned ∧ l'.thread = .done))) := by
    intro a l' h ha
    induction h with
    | refl => exact ⟨ha.1, ha.2.1, Or.inl ha.2.2⟩
    | step _ s ih =>
      obtain ⟨i1, i2, i3⟩ := ih
      cases s with
      | start h => exact absurd h i2
      | enter h h' => rw [i1] at h'; cases h'
      | leave h h' =>
        refine ⟨i1, by simp, ?_⟩
        rcases i3 with i3 | ⟨i3, i4⟩
        · exact Or.inl i3
        · exact Or.inr ⟨i3, rfl⟩
      | work h =>
        refine ⟨i1, by simp, ?_⟩
        rcases i3 with i3 | ⟨i3, i4⟩
        · exact Or.inl i3
        · rw [i4] at h; cases h
      | stop h =>
        rcases i3 with i3 | ⟨i3, i4⟩
        · rw [i3] at h; cases h
        · rw [i3] at h; cases h
      | join h h' => exact ⟨i1, i2, Or.inr ⟨rfl, h'⟩⟩
  have hl₁ : l₁.recv = false ∧ l₁.thread ≠ .created ∧ l₁.stopper = .joining := by
    cases hstop with
    | start hc => exact absurd hc ht
    | enter h h' => rw [hs] at hj; cases hj
    | leave h h' => rw [hs] at hj; cases hj
    | work h => rw [hs] at hj; cases hj
    | stop h => exact ⟨rfl, ht, rfl⟩
    | join h h' => cases hj
  obtain ⟨i1, i2, i3⟩ := key _ _ h hl₁
  refine ⟨i1, ?_, ?_, ?_⟩
  · rcases i3 with i3 | ⟨i3, -⟩
    · right
      have hdone : ∀ x : Loop, x.stopper = .joining → x.thread = .done → ∃ y, Steps x y ∧ y.stopper = .returned :=
        fun x hx hd => ⟨_, Steps.step (Steps.refl _) (Step.join x hx hd), rfl⟩
      have htest : ∀ x : Loop, x.recv = false → x.stopper = .joining → x.thread = .test →
          ∃ y, Steps x y ∧ y.stopper = .returned := by
        intro x hr hx hd
        obtain ⟨y, hy, hy'⟩ := hdone { x with thread := .done } hx rfl
        exact ⟨y, Steps.trans (Steps.step (Steps.refl _) (Step.leave x hd hr)) hy, hy'⟩
      cases hth : l'.thread with
      | created => exact absurd hth i2
      | test => exact htest l' i1 i3 hth
      | body =>
        obtain ⟨y, hy, hy'⟩ := htest { l' with thread := .test } i1 i3 rfl
        exact ⟨y, Steps.trans (Steps.step (Steps.refl _) (Step.work l' hth)) hy, hy'⟩
      | done => exact hdone l' i3 hth
    · exact Or.inl i3
  · intro hth x s
    cases s with
    | start h => exact absurd h i2
    | enter h h' => rw [i1] at h'; cases h'
    | leave h h' => rfl
    | work h => rw [hth] at h; cases h
    | stop h =>
      rcases i3 with i3 | ⟨i3, -⟩ <;> rw [i3] at h <;> cases h
    | join h h' => rw [hth] at h'; cases h'
  · intro hth x s
    cases s with
    | start h => exact absurd h i2
    | enter h h' => rw [hth] at h; cases h
    | leave h h' => rw [hth] at h; cases h
    | work h => rfl
    | stop h =>
      rcases i3 with i3 | ⟨i3, -⟩ <;> rw [i3] at h <;> cases h
    | join h h' => rw [hth] at h'; cases h'

/-! ### Properties: options -/

/-- C113 (h): options that are accepted keep every value given, and for HTTP/2 the payload leaves
    4096 bytes of the window free; payloads outside (4096, 2^31 - 1) are refused there. -/
theorem C113_options (d : Opts) (t p : Nat) (proto : Str) (o : Opts) (w : Option Nat)
    (h : makeOptions d t p proto = some (o, w)) :
    o.timeoutMs = (if t = 0 then d.timeoutMs else t) ∧
    o.protocol = (if proto = [] then d.protocol else proto) ∧
    (("h2".toList.isPrefixOf o.protocol = true ∧ w = some (o.payload + 4096) ∧ 0 < o.payload ∧
        o.payload + 4096 < 2 ^ 31 - 1 ∧ o.payload + 4096 = (if p = 0 then d.payload else p)) ∨
      ("h2".toList.isPrefixOf o.protocol = false ∧ w = none ∧ o.payload = (if p = 0 then d.payload else p))) := by
  unfold makeOptions at h
  have e : ∀ (d : Opts), (let o := d
      let o := if t ≠ 0 then { o with timeoutMs := t } else o
      let o := if p ≠ 0 then { o with payload := p } else o
      if proto ≠ [] then { o with protocol := proto } else o)
      = ⟨if t = 0 then d.timeoutMs else t, if p = 0 then d.payload else p, if proto = [] then d.protocol else proto⟩ := by
    intro d
    by_cases ht : t = 0 <;> by_cases hp : p = 0 <;> by_cases hq : proto = [] <;> simp [ht, hp, hq]
  have e' := e d
  dsimp only at e' h
  rw [e'] at h
  generalize (if p = 0 then d.payload else p) = pl at *
  generalize (if t = 0 then d.timeoutMs else t) = tm at *
  generalize (if proto = [] then d.protocol else proto) = pr at *
  dsimp only at h
  by_cases h1 : "h2".toList.isPrefixOf pr = true
  · rw [if_pos h1] at h
    by_cases h2 : ¬ pl > 4096
    · rw [if_pos h2] at h; cases h
    · rw [if_neg h2] at h
      by_cases h3 : ¬ pl < 2 ^ 31 - 1
      · rw [if_pos h3] at h; cases h
      · rw [if_neg h3] at h
        have he := Option.some_inj.1 h
        have ho : o = ⟨tm, pl - 4096, pr⟩ := (congrArg Prod.fst he).symm
        have hw : w = some pl := (congrArg Prod.snd he).symm
        subst ho
        have hpl : pl - 4096 + 4096 = pl := by omega
        refine ⟨rfl, rfl, Or.inl ⟨h1, ?_, ?_, ?_, ?_⟩⟩
        · show w = some (pl - 4096 + 4096)
          rw [hpl, hw]
        · show 0 < pl - 4096
          omega
        · show pl - 4096 + 4096 < 2 ^ 31 - 1
          omega
        · exact hpl
  · rw [if_neg h1] at h
    have he := Option.some_inj.1 h
    have ho : o = ⟨tm, pl, pr⟩ := (congrArg Prod.fst he).symm
    have hw : w = none := (congrArg Prod.snd he).symm
    subst ho
    exact ⟨rfl, rfl, Or.inr ⟨by simpa only [Bool.not_eq_true] using h1, hw, rfl⟩⟩

/-- C113 (i): a context over the black-box transport does not honour two fields of its
    descriptor that the normal one honours. -/
theorem C113_descriptor_violated :
    (∀ d, brpcChannel d = d) ∧ ∃ d, blackboxChannel d ≠ d := ⟨fun _ => rfl, ⟨true, true⟩, by decide⟩

example : makeOptions ⟨10000, 524288, "http".toList⟩ 0 8192 "h2:grpc".toList
      = some (⟨10000, 4096, "h2:grpc".toList⟩, some 8192) ∧
    makeOptions ⟨10000, 524288, "http".toList⟩ 5 4096 "h2".toList = none ∧
    makeOptions ⟨10000, 524288, "http".toList⟩ 5 0 [] = some (⟨5, 524288, "http".toList⟩, none) := by decide

end Yacl.Link.Blackbox
