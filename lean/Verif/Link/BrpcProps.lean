/-
C130: the brpc transport hands each request to the right channel, unchanged, and reports what happened.
-/
import Verif.Link.Brpc
import Verif.Channel.Delivery
import Mathlib.Data.List.Induction

namespace Yacl.Link.Brpc

open Yacl.Channel (Bytes Request State Out Event runEvents)
open Yacl.Channel.Spec (SentLog WellBehaved FromPeer HonestHistory received wireRequests)
open Yacl.Channel.Sender (RetryOptions shouldRetry)

/-! ### Specification -/

/-- What the channel of party `j` with party `i` gets to see of a history: the requests `i` sent to `j` that were
not lost on the way, and the calls of `j`'s user on it. -/
def seen (j i : ℕ) (es : List Ev) : List Event :=
  es.filterMap fun
    | .attempt i' j' r f => if i' = i ∧ j' = j then
        (match f with
          | .requestLost _ _ => none
          | _ => some (.request r))
        else none
    | .user j' i' e => if i' = i ∧ j' = j then some e else none

/-- The outcomes of the calls on that channel in the history. -/
def log (j i : ℕ) (es : List Ev) : List (Event × Out) := (runEvents State.init (seen j i es)).2

/-! ### Helpers -/

theorem unpack_pack (i : ℕ) (r : Request) : unpack (pack i r) = some r := by
  cases r <;> simp [pack, packMono, packChunked, unpack]

theorem rank_pack (i : ℕ) (r : Request) : (pack i r).senderRank = i := by cases r <;> rfl

theorem onPush_pack (c : Chan) (hc : c.aborting = false) (i : ℕ) (r : Request) :
    (onPush c (pack i r)).1 = { c with st := (Yacl.Channel.step c.st (.request r)).1 } := by
  simp [onPush, hc, unpack_pack, Yacl.Channel.step]

theorem runEvents_append (st : State) (es : List Event) (e : Event) :
    (runEvents st (es ++ [e])).1 = (Yacl.Channel.step (runEvents st es).1 e).1 := by
  induction es generalizing st with
  | nil => rfl
  | cons x t ih => simp only [List.cons_append, runEvents]; exact ih _

theorem seen_append (j i : ℕ) (es : List Ev) (e : Ev) : seen j i (es ++ [e]) = seen j i es ++ seen j i [e] := by
  simp [seen]

theorem run_append (w : World) (es : List Ev) (e : Ev) : w.run (es ++ [e]) = (w.run es).step e := by
  simp [World.run]

theorem push_ne (s : Server) (q : PushRequest) {r : ℕ} (h : r ≠ q.senderRank) : (push s q).1 r = s r := by
  unfold push
  cases s q.senderRank with
  | none => rfl
  | some c => simp [Server.set, h]

/-! ### C130 -/

/-- A request is taken apart into what was put together, and no request counts as both kinds. -/
theorem C130_pack (i : ℕ) (r : Request) : unpack (pack i r) = some r ∧ (pack i r).senderRank = i :=
  ⟨unpack_pack i r, rank_pack i r⟩

/-- Dispatch: a request touches no channel but that of the rank it names; a rank without channel is answered
with an error; a request of unknown type is answered with an error and leaves its channel as it was. -/
theorem C130_dispatch (s : Server) (q : PushRequest) :
    (∀ r, r ≠ q.senderRank → (push s q).1 r = s r) ∧
    (s q.senderRank = none → push s q = (s, .code .unexpectedError)) ∧
    (∀ c n, s q.senderRank = some c → c.aborting = false → q.transType = .other n →
      (push s q).2 = .code .invalidRequest ∧ (push s q).1 q.senderRank = some c) ∧
    (∀ c, s q.senderRank = some c → c.aborting = true →
      (push s q).2 = .threw ∧ (push s q).1 q.senderRank = some c) ∧
    (∀ c r, s q.senderRank = some c → c.aborting = false →
      (q.transType = .mono ∧ r = .mono q.key q.value ∨
        q.transType = .chunked ∧ r = .chunk q.key q.value q.chunkOffset q.messageLength) →
      (push s q).1 q.senderRank = some { c with st := (Yacl.Channel.onRequest c.st r).1 } ∧
      ((push s q).2 = .threw ↔ (Yacl.Channel.onRequest c.st r).2 = .thrown ∨ (Yacl.Channel.onRequest c.st r).2 = .ub) ∧
      ((push s q).2 ≠ .threw → (push s q).2 = .code .ok)) := by
  refine ⟨fun r h => push_ne s q h, ?_, ?_, ?_, ?_⟩
  · intro h; simp [push, h]
  · intro c n h ha ht
    have hu : unpack q = none := by simp [unpack, ht]
    simp [push, h, onPush, ha, hu, Server.set]
  · intro c h ha; simp [push, h, onPush, ha, Server.set]
  · intro c r h ha ht
    have hu : unpack q = some r := by
      rcases ht with ⟨ht, rfl⟩ | ⟨ht, rfl⟩ <;> simp [unpack, ht]
    have e : push s q = (s.set q.senderRank (onPush c q).1, (onPush c q).2) := by simp [push, h]
    rw [e]
    refine ⟨by simp [Server.set, onPush, ha, hu], ?_, ?_⟩
    all_goals
      simp only [onPush, ha, hu, Bool.false_eq_true, if_false]
      cases (Yacl.Channel.onRequest c.st r).2 <;> simp

/-- The channels of a world do not influence each other: after any history, the channel of `j` with `i` is in the
state that the requests of `i` to `j` (those not lost) and the calls of `j` on it produce by themselves; parties
without a channel to each other never get one. -/
theorem C130_isolation (n : ℕ) (es : List Ev) (j i : ℕ) :
    (World.init n).run es j i =
      if j < n ∧ i < n ∧ i ≠ j then some ⟨false, (runEvents State.init (seen j i es)).1⟩ else none := by
  induction es using List.reverseRecOn with
  | nil =>
    simp only [World.run, List.foldl_nil, World.init, createContext, seen, List.filterMap_nil, runEvents]
    by_cases hj : j < n <;> simp [hj]
  | append_singleton es e ih =>
    rw [run_append, seen_append]
    generalize hw : (World.init n).run es = w at ih ⊢
    cases e with
    | user j' i' e =>
      simp only [World.step, World.set]
      by_cases hj : j = j'
      · subst hj
        simp only [if_true, userStep]
        by_cases hi : i' = i
        · subst hi
          have hs : seen j i' [Ev.user j i' e] = [e] := by simp [seen]
          rw [hs, runEvents_append]
          by_cases hc : j < n ∧ i' < n ∧ i' ≠ j
          · rw [if_pos hc] at ih ⊢; simp [ih, Server.set]
          · rw [if_neg hc] at ih ⊢; simp [ih]
        · have : seen j i [Ev.user j i' e] = [] := by simp [seen, hi]
          rw [this, List.append_nil, ← ih]
          cases w j i' with
          | none => rfl
          | some c => simp [Server.set, Ne.symm hi]
      · have : seen j i [Ev.user j' i' e] = [] := by simp [seen, Ne.symm hj]
        rw [this, List.append_nil, if_neg hj, ih]
    | attempt i' j' r f =>
      have keep : seen j i [Ev.attempt i' j' r f] = [] → (World.step w (Ev.attempt i' j' r f)) j i = w j i →
          (World.step w (Ev.attempt i' j' r f)) j i = if j < n ∧ i < n ∧ i ≠ j then
            some ⟨false, (runEvents State.init (seen j i es ++ seen j i [Ev.attempt i' j' r f])).1⟩ else none := by
        intro h1 h2; rw [h1, List.append_nil, h2, ih]
      by_cases hl : ∃ c h, f = .requestLost c h
      · obtain ⟨c, h, rfl⟩ := hl
        apply keep
        · simp [seen]
        · rfl
      · have st : World.step w (Ev.attempt i' j' r f) = w.set j' (push (w j') (pack i' r)).1 := by
          cases f with
          | requestLost c h => exact absurd ⟨c, h, rfl⟩ hl
          | responseLost c h => rfl
          | answered c h => rfl
        by_cases hj : j = j'
        · subst hj
          by_cases hi : i = i'
          · subst hi
            have hs : seen j i [Ev.attempt i j r f] = [.request r] := by
              cases f with
              | requestLost c h => exact absurd ⟨c, h, rfl⟩ hl
              | responseLost c h => simp [seen]
              | answered c h => simp [seen]
            rw [hs, st, runEvents_append]
            simp only [World.set, if_true, push, rank_pack]
            by_cases hc : j < n ∧ i < n ∧ i ≠ j
            · rw [if_pos hc] at ih ⊢; simp [ih, Server.set, onPush_pack]
            · rw [if_neg hc] at ih ⊢; simp [ih]
          · apply keep
            · simp [seen, Ne.symm hi]
            · rw [st]; simp only [World.set, if_true]
              exact push_ne _ _ (by rw [rank_pack]; exact hi)
        · apply keep
          · simp [seen, Ne.symm hj]
          · rw [st]; simp [World.set, hj]

/-- How one `SendRequest` ends says what happened: it returns exactly when the answer came back and was positive,
and then the request was handed to the peer's channel; it ends with a `LinkError` exactly when brpc reports a
failure; a refusal of the peer is another exception. -/
theorem C130_send_request (w : World) (i j : ℕ) (r : Request) (f : Fate) :
    ((sendRequest w i j r f).2 = .ok ↔ (∃ c h, f = .answered c h) ∧ (push (w j) (pack i r)).2 = .code .ok) ∧
    ((sendRequest w i j r f).2 = .ok → (sendRequest w i j r f).1 j = (push (w j) (pack i r)).1 ∧ ∃ c, w j i = some c) ∧
    ((sendRequest w i j r f).2 = .peerError ↔ (∃ c h, f = .answered c h) ∧ ∃ e, e ≠ .ok ∧ (push (w j) (pack i r)).2 = .code e) ∧
    (∀ k, k ≠ j → (sendRequest w i j r f).1 k = w k) := by
  have hk : ∀ k, k ≠ j → (sendRequest w i j r f).1 k = w k := by
    intro k hk; cases f <;> simp [sendRequest, World.set, hk]
  have hok : (push (w j) (pack i r)).2 = .code .ok → ∃ c, w j i = some c := by
    intro h
    unfold push at h
    rw [rank_pack] at h
    cases hw : w j i with
    | none => rw [hw] at h; simp at h
    | some c => exact ⟨c, rfl⟩
  cases f with
  | requestLost c h => exact ⟨by simp [sendRequest], by simp [sendRequest], by simp [sendRequest], hk⟩
  | responseLost c h => exact ⟨by simp [sendRequest], by simp [sendRequest], by simp [sendRequest], hk⟩
  | answered c h =>
    refine ⟨?_, ?_, ?_, hk⟩
    · simp only [sendRequest]
      cases hr : (push (w j) (pack i r)).2 with
      | threw => simp
      | code e => cases e <;> simp
    · intro hs
      refine ⟨by simp [sendRequest, World.set], hok ?_⟩
      simp only [sendRequest] at hs
      cases hr : (push (w j) (pack i r)).2 with
      | threw => rw [hr] at hs; simp at hs
      | code e => rw [hr] at hs; cases e <;> simp_all
    · simp only [sendRequest]
      cases hr : (push (w j) (pack i r)).2 with
      | threw => simp
      | code e => cases e <;> simp

/-- The whole sending loop, for every retry policy and everything the network does: its effect on the world is that
of some number of attempts to send this one request, at most one more than the retries allowed.  If it returns
normally, the last attempt was answered and so the request is among those the peer's channel has seen.  If it gives
up, the policy forbids a retry or all retries are used.  It ends as aborted only when the abort flag was up. -/
theorem C130_send_loop (o : RetryOptions) (i j : ℕ) (r : Request) (fates : ℕ → Fate) (aborting : ℕ → Bool)
    (left count : ℕ) (w : World) :
    ∃ m, m ≤ left + 1 ∧
      (sendLoop o i j r fates aborting left count w).1
        = w.run ((List.range' count m).map fun k => .attempt i j r (fates k)) ∧
      ((sendLoop o i j r fates aborting left count w).2 = .sent →
        0 < m ∧ ∃ c h, fates (count + m - 1) = .answered c h) ∧
      (∀ c h, (sendLoop o i j r fates aborting left count w).2 = .failed c h →
        shouldRetry o c h = false ∨ m = left + 1) ∧
      ((sendLoop o i j r fates aborting left count w).2 = .aborted → aborting (count + m) = true) ∧
      ((sendLoop o i j r fates aborting left count w).2 ≠ .aborted → ∀ k < m, aborting (count + k) = false) := by
  induction left generalizing count w with
  | zero =>
    rw [sendLoop]
    by_cases ha : aborting count
    · exact ⟨0, by omega, by simp [ha, World.run], by simp [ha], by simp [ha], by simp [ha], by simp⟩
    · have hb : ∀ k < 1, aborting (count + k) = false := by
        intro k hk; obtain rfl : k = 0 := by omega
        simpa using ha
      refine ⟨1, by omega, ?_, ?_, fun _ _ _ => .inr rfl, ?_, fun _ => hb⟩
      · simp only [ha, Bool.false_eq_true, if_false, List.range'_succ, List.range'_zero, List.map_cons, List.map_nil,
          World.run, List.foldl_cons, List.foldl_nil, World.step]
        rcases hs : sendRequest w i j r (fates count) with ⟨w', _ | ⟨c, h⟩ | _⟩ <;> simp
      · intro hs
        refine ⟨by omega, ?_⟩
        have := (C130_send_request w i j r (fates count)).1
        rcases hq : sendRequest w i j r (fates count) with ⟨w', _ | ⟨c, h⟩ | _⟩
        · rw [hq] at this; simpa using (this.1 rfl).1
        · rw [if_neg ha, hq] at hs; simp only [] at hs; split at hs <;> simp at hs
        · rw [if_neg ha, hq] at hs; simp at hs
      · intro hs
        rcases hq : sendRequest w i j r (fates count) with ⟨w', _ | ⟨c, h⟩ | _⟩
        · rw [if_neg ha, hq] at hs; simp at hs
        · rw [if_neg ha, hq] at hs; simp only [] at hs; split at hs <;> simp at hs
        · rw [if_neg ha, hq] at hs; simp at hs
  | succ left ih =>
    rw [sendLoop]
    by_cases ha : aborting count
    · exact ⟨0, by omega, by simp [ha, World.run], by simp [ha], by simp [ha], by simp [ha], by simp⟩
    · have hb : ∀ k < 1, aborting (count + k) = false := by
        intro k hk; obtain rfl : k = 0 := by omega
        simpa using ha
      rcases hq : sendRequest w i j r (fates count) with ⟨w', _ | ⟨c, h⟩ | _⟩
      · refine ⟨1, by omega, ?_, ?_, by simp [ha], by simp [ha], fun _ => hb⟩
        · simp [ha, World.run, World.step, hq]
        · intro _
          refine ⟨by omega, ?_⟩
          have := (C130_send_request w i j r (fates count)).1
          rw [hq] at this; simpa using (this.1 rfl).1
      · by_cases hr : shouldRetry o c h
        · obtain ⟨m, h1, h2, h3, h4, h5, h6⟩ := ih (count + 1) w'
          refine ⟨m + 1, by omega, ?_, ?_, ?_, ?_, ?_⟩
          · simp only [ha, Bool.false_eq_true, if_false, hr, Bool.not_true]
            rw [h2, List.range'_succ, List.map_cons]
            simp [World.run, World.step, hq]
          · intro hs
            simp only [ha, Bool.false_eq_true, if_false, hr, Bool.not_true] at hs
            obtain ⟨h4, c', h', h5⟩ := h3 hs
            refine ⟨by omega, c', h', ?_⟩
            rw [← h5]; congr 1; omega
          · intro c' h' hs
            simp only [ha, Bool.false_eq_true, if_false, hr, Bool.not_true] at hs
            rcases h4 c' h' hs with h | h
            · exact .inl h
            · exact .inr (by omega)
          · intro hs
            simp only [ha, Bool.false_eq_true, if_false, hr, Bool.not_true] at hs
            rw [← h5 hs]; congr 1; omega
          · intro hs k hk
            simp only [ha, Bool.false_eq_true, if_false, hr, Bool.not_true] at hs
            rcases k with _ | k
            · exact hb 0 (by omega)
            · rw [← h6 hs k (by omega)]; congr 1; omega
        · refine ⟨1, by omega, ?_, ?_, ?_, by simp [ha, hr], fun _ => hb⟩
          · simp [ha, World.run, World.step, hq, hr]
          · intro hs; simp [ha, hr] at hs
          · intro c' h' hs
            simp [ha, hr] at hs
            obtain ⟨rfl, rfl⟩ := hs
            exact .inl (by simpa using hr)
      · refine ⟨1, by omega, ?_, ?_, by simp [ha], by simp [ha], fun _ => hb⟩
        · simp [ha, World.run, World.step, hq]
        · intro hs; simp [ha] at hs

/-- A request whose sending returns normally has been seen by the peer's channel, and the sending appends to the
history nothing but attempts to send it. -/
theorem C130_sent_is_seen (n : ℕ) (es : List Ev) (o : RetryOptions) (i j : ℕ) (r : Request) (fates : ℕ → Fate)
    (aborting : ℕ → Bool) (left : ℕ)
    (hs : (sendLoop o i j r fates aborting left 0 ((World.init n).run es)).2 = .sent) :
    ∃ es', (sendLoop o i j r fates aborting left 0 ((World.init n).run es)).1 = (World.init n).run (es ++ es') ∧
      (∀ e ∈ es', ∃ f, e = .attempt i j r f) ∧ es'.length ≤ left + 1 ∧ Event.request r ∈ seen j i es' := by
  obtain ⟨m, h1, h2, h3, -⟩ := C130_send_loop o i j r fates aborting left 0 ((World.init n).run es)
  obtain ⟨h4, c, h, h5⟩ := h3 hs
  refine ⟨(List.range' 0 m).map fun k => .attempt i j r (fates k), ?_, ?_, ?_, ?_⟩
  · rw [h2]; simp [World.run]
  · intro e he
    obtain ⟨k, _, rfl⟩ := List.mem_map.1 he
    exact ⟨_, rfl⟩
  · simpa using h1
  · simp only [seen, List.mem_filterMap, List.mem_map]
    refine ⟨.attempt i j r (fates (0 + m - 1)), ⟨0 + m - 1, ?_, rfl⟩, ?_⟩
    · rw [List.mem_range'_1]; omega
    · rw [h5]; simp

/-- Exactly-once delivery over brpc.  Party `i` sends the messages `S` to `j` (legal keys, none used twice), in
attempts of which each may be lost, answered or not answered, with any number of repetitions, while all other
parties do what they like.  Then every message `j` receives from `i` is the one sent under that key, no key is
received twice, and a message each of whose requests was at least once not lost has been received or can be
received, unless `j` is closing the channel. -/
theorem C130_exactly_once (n : ℕ) (es : List Ev) (j i : ℕ) (hj : j < n) (hi : i < n) (hij : i ≠ j) (S : SentLog)
    (hS : WellBehaved S) (per : ℕ) (hp : 0 < per)
    (hsend : ∀ r f, Ev.attempt i j r f ∈ es → FromPeer S per r)
    (huser : ∀ e, Ev.user j i e ∈ es → ∀ r, e ≠ .request r) :
    (∀ k v, (k, v) ∈ received (log j i es) → ∃ x, (k, x) ∈ S ∧ v = x.map some) ∧
    ((received (log j i es)).map (·.1)).Nodup ∧
    ∃ c, (World.init n).run es j i = some c ∧
      ∀ m k x, S[m]? = some (k, x) → Event.stop ∉ seen j i es →
        (∀ r ∈ wireRequests per m (k, x), ∃ f, (∀ a b, f ≠ .requestLost a b) ∧ Ev.attempt i j r f ∈ es) →
        (k, x.map some) ∈ received (log j i es) ∨ (Yacl.Channel.recv c.st k).2 = .value (x.map some) := by
  have hh : HonestHistory S per (seen j i es) := by
    intro r hr
    simp only [seen, List.mem_filterMap] at hr
    obtain ⟨e, he, hs⟩ := hr
    cases e with
    | attempt i' j' r' f =>
      simp only [] at hs
      split at hs
      · rename_i h
        obtain ⟨rfl, rfl⟩ := h
        cases f <;> simp at hs <;> subst hs <;> exact hsend _ _ he
      · exact absurd hs (by simp)
    | user j' i' e' =>
      simp only [] at hs
      split at hs
      · rename_i h
        obtain ⟨rfl, rfl⟩ := h
        simp only [Option.some.injEq] at hs
        exact absurd hs (huser _ he r)
      · exact absurd hs (by simp)
  obtain ⟨-, h2, h3, h4⟩ := Yacl.Channel.C04_exactly_once_delivery S hS per hp (seen j i es) hh
  refine ⟨h2, h3, _, by rw [C130_isolation, if_pos ⟨hj, hi, hij⟩], ?_⟩
  intro m k x hm hstop hall
  refine (h4 m k x hm).1 hstop ?_
  intro r hr
  obtain ⟨f, hf, he⟩ := hall r hr
  simp only [seen, List.mem_filterMap]
  refine ⟨_, he, ?_⟩
  cases f with
  | requestLost a b => exact absurd rfl (hf a b)
  | responseLost a b => simp
  | answered a b => simp

theorem makeOptions_eq (D T : ℕ) (bs sg : List Char) (hD : 4096 < D) (hD' : D < 2 ^ 31 - 1) (hd : ¬ ['h', '2'] <+: bs)
    (timeoutMs maxPayload : ℕ) (protocol connType : List Char) (window : ℕ) :
    makeOptions ⟨T, D, bs, sg⟩ timeoutMs maxPayload protocol connType window =
      let payload := if maxPayload = 0 then D else maxPayload
      let o : Options := ⟨if timeoutMs = 0 then T else timeoutMs, payload, if protocol = [] then bs else protocol,
        if connType = [] then sg else connType⟩
      if ['h', '2'] <+: protocol then
        if payload ≤ 4096 ∨ 2 ^ 31 - 1 ≤ payload then none
        else some ({ o with maxPayload := payload - 4096 }, payload)
      else some (o, window) := by
  have h2 : "h2".toList = ['h', '2'] := by decide
  have hp : (if protocol ≠ [] then protocol else bs) = if protocol = [] then bs else protocol := by
    by_cases h : protocol = [] <;> simp [h]
  have hm : (if maxPayload ≠ 0 then maxPayload else D) = if maxPayload = 0 then D else maxPayload := by
    by_cases h : maxPayload = 0 <;> simp [h]
  have ht : (if timeoutMs ≠ 0 then timeoutMs else T) = if timeoutMs = 0 then T else timeoutMs := by
    by_cases h : timeoutMs = 0 <;> simp [h]
  have hc : (if connType ≠ [] then connType else sg) = if connType = [] then sg else connType := by
    by_cases h : connType = [] <;> simp [h]
  simp only [makeOptions, h2, hp, hm, ht, hc]
  have hq : (List.isPrefixOf ['h', '2'] (if protocol = [] then bs else protocol) = true) ↔ ['h', '2'] <+: protocol := by
    rw [List.isPrefixOf_iff_prefix]
    by_cases h : protocol = []
    · subst h; simp [hd]
    · simp [h]
  generalize (if maxPayload = 0 then D else maxPayload) = pl
  generalize 2 ^ 31 - 1 = M
  by_cases h : ['h', '2'] <+: protocol
  · simp only [hq, h, if_true]
    by_cases h3 : pl ≤ 4096
    · simp [h3]
    · by_cases h4 : pl ≥ M
      · simp [h3, h4]
      · simp [h3, h4]
  · simp only [hq, h, if_false]

/-- Every context gets a usable chunk size, whatever the description says: if creation does not refuse, chunks are
not empty, are at most as long as asked for, and with an h2 protocol leave 4096 bytes of the window free; what the
description leaves at zero or empty has its default. -/
theorem C130_options (timeoutMs maxPayload : ℕ) (protocol connType : List Char) (window : ℕ) :
    (∀ o win, makeOptions defaultOptions timeoutMs maxPayload protocol connType window = some (o, win) →
      0 < o.maxPayload ∧
      (['h', '2'] <+: protocol → o.maxPayload + 4096 = (if maxPayload = 0 then 512 * 1024 else maxPayload) ∧
        win = o.maxPayload + 4096 ∧ win < 2 ^ 31) ∧
      (¬ ['h', '2'] <+: protocol → o.maxPayload = (if maxPayload = 0 then 512 * 1024 else maxPayload) ∧ win = window) ∧
      o.timeoutMs = (if timeoutMs = 0 then 10 * 1000 else timeoutMs) ∧
      o.protocol = (if protocol = [] then "baidu_std".toList else protocol) ∧
      o.connType = (if connType = [] then "single".toList else connType)) ∧
    (makeOptions defaultOptions timeoutMs maxPayload protocol connType window = none ↔
      ['h', '2'] <+: protocol ∧ maxPayload ≠ 0 ∧ (maxPayload ≤ 4096 ∨ 2 ^ 31 - 1 ≤ maxPayload)) := by
  have hd : ¬ ['h', '2'] <+: "baidu_std".toList := by decide
  unfold defaultOptions
  generalize "baidu_std".toList = bs at hd ⊢
  generalize "single".toList = sg
  have h1 : 4096 < 512 * 1024 := by omega
  have h2 : 512 * 1024 < 2 ^ 31 - 1 := by omega
  have h2' : 2 ^ 31 - 1 < 2 ^ 31 := by omega
  rw [makeOptions_eq _ _ _ _ h1 h2 hd]
  generalize 512 * 1024 = D at h1 h2 ⊢
  generalize 10 * 1000 = T
  generalize 2 ^ 31 - 1 = M at h2 h2' ⊢
  generalize 2 ^ 31 = M' at h2' ⊢
  simp only []
  constructor
  · intro o win h
    by_cases hp : ['h', '2'] <+: protocol
    · rw [if_pos hp] at h
      generalize (if maxPayload = 0 then D else maxPayload) = pl at h ⊢
      by_cases hn : pl ≤ 4096 ∨ M ≤ pl
      · rw [if_pos hn] at h; exact absurd h (by simp)
      · rw [if_neg hn] at h
        simp only [Option.some.injEq, Prod.mk.injEq] at h
        obtain ⟨rfl, rfl⟩ := h
        simp only [hp, not_true_eq_false, false_implies, true_implies, and_true, true_and]
        omega
    · rw [if_neg hp] at h
      simp only [Option.some.injEq, Prod.mk.injEq] at h
      obtain ⟨rfl, rfl⟩ := h
      simp only [hp, not_false_eq_true, false_implies, true_implies, and_true, true_and]
      split <;> omega
  · by_cases hp : ['h', '2'] <+: protocol
    · simp only [hp, if_true, true_and]
      by_cases hm : maxPayload = 0
      · simp only [hm, if_true, ne_eq, not_true_eq_false, false_and, iff_false]
        rw [if_neg (by omega)]; simp
      · simp only [hm, if_false, ne_eq, not_false_eq_true, true_and]
        split <;> simp_all
    · simp [hp]

/-- The h2 window is one flag of the process: making a second context with a smaller payload leaves the first with
chunks larger than the window; and `SetMaxBytesPerChunk` keeps only 32 bits, so 4 GiB becomes an empty chunk. -/
theorem C130_options_violated :
    (∃ o1 w1 o2 w2, makeOptions defaultOptions 0 0 "h2".toList [] 65536 = some (o1, w1) ∧
      makeOptions defaultOptions 0 8192 "h2".toList [] w1 = some (o2, w2) ∧ w2 < o1.maxPayload) ∧
    (defaultOptions.setMaxBytes (2 ^ 32)).maxPayload = 0 :=
  ⟨⟨⟨10000, 520192, "h2".toList, "single".toList⟩, 524288, ⟨10000, 4096, "h2".toList, "single".toList⟩, 8192,
    by decide +kernel⟩, by decide +kernel⟩

/-- The rank in a request is believed: whoever reaches the port of party `j` can put a message into the channel of
any other party `i`, and `j`'s `Recv` from `i` returns it. -/
theorem C130_spoof_violated (n i j : ℕ) (hj : j < n) (hi : i < n) (hij : i ≠ j) :
    ∃ q : PushRequest, (push (World.init n j) q).2 = .code .ok ∧
      ∃ c, (push (World.init n j) q).1 i = some c ∧ (Yacl.Channel.recv c.st [107]).2 = .value [some 66] := by
  refine ⟨⟨i, [107, 1, 2, 49], [66], .mono, 0, 0⟩, ?_⟩
  have hw : World.init n j i = some ⟨false, State.init⟩ := by simp [World.init, createContext, hj, hi, hij]
  have e : push (World.init n j) ⟨i, [107, 1, 2, 49], [66], .mono, 0, 0⟩
      = ((World.init n j).set i (onPush ⟨false, State.init⟩ ⟨i, [107, 1, 2, 49], [66], .mono, 0, 0⟩).1,
        (onPush ⟨false, State.init⟩ ⟨i, [107, 1, 2, 49], [66], .mono, 0, 0⟩).2) := by simp [push, hw]
  rw [e]
  refine ⟨?_, _, by simp [Server.set]; rfl, ?_⟩
  · simp only [onPush, unpack]; decide +kernel
  · simp only [onPush, unpack]; decide +kernel

/-- One bad request makes an exception leave the service function of the peer: a chunk reaching beyond its message,
whatever the state of the channel. -/
theorem C130_exception_violated (s : Server) (i : ℕ) (c : Chan) (hc : s i = some c) (key : Bytes) :
    (push s ⟨i, key, [0], .chunked, 0, 0⟩).2 = .threw := by
  simp only [push, hc, onPush, unpack]
  by_cases ha : c.aborting <;> simp [ha, Yacl.Channel.onRequest, Yacl.Channel.onChunked]

/-- A chunk that is repeated after its message was complete stays behind for ever; without sequence numbers
(`disable_msg_seq_id`), a later message under the same key is delivered with the old bytes in its place: here the
message 3, 4 arrives as 3, 2. -/
theorem C130_stale_chunk_violated :
    (runEvents State.init
      [.request (.chunk [107] [1] 0 2), .request (.chunk [107] [2] 1 2), .request (.chunk [107] [2] 1 2),
       .recv [107],
       .request (.chunk [107] [3] 0 2), .request (.chunk [107] [4] 1 2), .recv [107]]).2.filterMap
      (fun x => match x.2 with
        | .value v => some v
        | _ => none) = [[some 1, some 2], [some 3, some 2]] := by
  decide +kernel

/-! ### Non-vacuity -/

/-- Party 0 sends one message to party 1; the first attempt is lost, the answer to the second is lost, the third is
answered; party 2 interferes with its own channel. -/
def exampleHistory : List Ev :=
  [.attempt 0 1 (.mono (Yacl.Channel.buildChannelKey [97] 1) [5]) (.requestLost 1 0),
   .attempt 0 1 (.mono (Yacl.Channel.buildChannelKey [97] 1) [5]) (.responseLost 1 0),
   .attempt 2 1 (.mono (Yacl.Channel.buildChannelKey [97] 1) [9]) (.answered 0 0),
   .attempt 0 1 (.mono (Yacl.Channel.buildChannelKey [97] 1) [5]) (.answered 0 0),
   .user 1 0 (.recv [97])]

example : received (log 1 0 exampleHistory) = [([97], [some 5])] := by decide +kernel

example : WellBehaved [([97], [5])] ∧ ∀ r f, Ev.attempt 0 1 r f ∈ exampleHistory → FromPeer [([97], [5])] 4 r := by
  refine ⟨⟨by decide +kernel, by decide, by decide, by decide⟩, ?_⟩
  intro r f h
  have : r = .mono (Yacl.Channel.buildChannelKey [97] 1) [5] := by
    simp [exampleHistory] at h
    rcases h with h | h | h <;> exact h.1
  subst this
  exact .msg 0 ([97], [5]) _ rfl (by decide +kernel)

end Yacl.Link.Brpc
