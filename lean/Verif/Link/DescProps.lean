import Verif.Link.DescModel
import Mathlib.Tactic.Common

/-! C137: a link description from a message, and what the networked factories configure from a description. -/

namespace Yacl.Link.Desc

open Yacl.Channel.Sender (RetryOptions RetryOptionsProto)

/-! ### Specification -/

/-- A number that is read from a message: 0 means unset. -/
def Reads (sent dflt got : ℕ) : Prop := (sent = 0 → got = dflt) ∧ (sent ≠ 0 → got = sent)

/-- A text that is read from a message: empty means unset. -/
def ReadsText (sent dflt got : Str) : Prop := (sent = [] → got = dflt) ∧ (sent ≠ [] → got = sent)

/-- The settings of the TLS message arrive. -/
def ReadsTls (sent : SslOptionsProto) (got : SslOptions) : Prop :=
  got.certPath = sent.certPath ∧ got.keyPath = sent.keyPath ∧ got.depth = sent.depth ∧ got.caPath = sent.caPath

/-- The channel to party `p` is set up as the description says, except for the number of chunks in flight and the
cipher suites of the client side. -/
structure Obeys (d : ContextDesc) (p : Party) (c : ChannelCfg) : Prop where
  address : c.address = p.host
  recvTimeout : c.recvTimeoutMs = d.recvTimeoutMs
  onError : c.exitIfAsyncError = d.exitIfAsyncError
  retry : c.retry = d.retry
  throttle : c.throttleWindow = d.throttleWindow
  seqId : c.disableMsgSeqId = d.disableMsgSeqId
  plain : d.enableSsl = false → c.tls = none
  secured : d.enableSsl = true → ∃ t, c.tls = some t ∧ t.certPath = d.clientSsl.certPath ∧
    t.keyPath = d.clientSsl.keyPath ∧ t.depth = d.clientSsl.depth ∧ t.caPath = d.clientSsl.caPath
  requestTimeout : d.httpTimeoutMs ≠ 0 → c.opts.timeoutMs = d.httpTimeoutMs
  protocol : d.protocol ≠ [] → c.opts.protocol = d.protocol
  connType : d.connType ≠ [] → c.opts.connType = d.connType
  /-- no request is larger than asked for; over h2, 4 KiB are kept for the envelope -/
  payload : d.httpMaxPayload ≠ 0 → c.opts.maxPayload =
    if "h2".toList.isPrefixOf c.opts.protocol then d.httpMaxPayload - 4096 else d.httpMaxPayload

/-! ### Messages -/

/-- C137 (a): every setting a message carries arrives; unset ones get the documented default. -/
theorem C137_message (pb : ContextDescProto) :
    ReadsText pb.id "root".toList (ContextDesc.ofProto pb).id ∧
    (ContextDesc.ofProto pb).parties = pb.parties ∧
    Reads pb.connectRetryTimes 10 (ContextDesc.ofProto pb).connectRetryTimes ∧
    Reads pb.connectRetryIntervalMs 1000 (ContextDesc.ofProto pb).connectRetryIntervalMs ∧
    Reads pb.recvTimeoutMs 30000 (ContextDesc.ofProto pb).recvTimeoutMs ∧
    Reads pb.httpMaxPayload 1048576 (ContextDesc.ofProto pb).httpMaxPayload ∧
    Reads pb.httpTimeoutMs 20000 (ContextDesc.ofProto pb).httpTimeoutMs ∧
    Reads pb.throttleWindow 10 (ContextDesc.ofProto pb).throttleWindow ∧
    Reads pb.chunkParallel 8 (ContextDesc.ofProto pb).chunkParallel ∧
    ReadsText pb.protocol "baidu_std".toList (ContextDesc.ofProto pb).protocol ∧
    (ContextDesc.ofProto pb).connType = pb.connType ∧
    (ContextDesc.ofProto pb).enableSsl = pb.enableSsl ∧
    ReadsTls pb.clientSsl (ContextDesc.ofProto pb).clientSsl ∧
    ReadsTls pb.serverSsl (ContextDesc.ofProto pb).serverSsl := by
  refine ⟨⟨?_, ?_⟩, rfl, ?_, ?_, ?_, ?_, ?_, ?_, ?_, ⟨?_, ?_⟩, rfl, rfl, ⟨rfl, rfl, rfl, rfl⟩, ⟨rfl, rfl, rfl, rfl⟩⟩
  · intro h; simp [ContextDesc.ofProto, h, ContextDesc.default]
  · intro h; simp [ContextDesc.ofProto, h]
  all_goals first
    | (refine ⟨fun h => ?_, fun h => ?_⟩ <;> simp [ContextDesc.ofProto, orElse, h, ContextDesc.default]; done)
    | (intro h; simp [ContextDesc.ofProto, h, ContextDesc.default]; done)

/-- The message in which nothing is set. -/
def emptyProto : ContextDescProto :=
  ⟨[], [], 0, 0, 0, 0, 0, 0, [], [], false, ⟨[], [], 0, []⟩, ⟨[], [], 0, []⟩, 0, ⟨0, 0, 0, 0, [], [], false⟩⟩

/-- C137 (b): a message in which nothing is set is not the default description: the default retries after every
error, the message only does so for the error codes it lists (none listed: all of them). -/
theorem C137_empty_violated : ContextDesc.ofProto emptyProto ≠ ContextDesc.default := by decide

/-- ... in everything else it is. -/
theorem C137_empty_partial :
    ContextDesc.ofProto emptyProto =
      { ContextDesc.default with retry := { ContextDesc.default.retry with aggressive := false } } := by decide

/-- C137 (c): some settings cannot be sent in a message at all: whatever the message, asynchronous errors end the
process, messages are numbered, the link is not a black-box one, and the cipher suites are the engine's. -/
theorem C137_unreachable (pb : ContextDescProto) :
    (ContextDesc.ofProto pb).exitIfAsyncError = true ∧ (ContextDesc.ofProto pb).disableMsgSeqId = false ∧
    (ContextDesc.ofProto pb).linkType = "normal".toList ∧ (ContextDesc.ofProto pb).clientSsl.ciphers = [] ∧
    (ContextDesc.ofProto pb).serverSsl.ciphers = [] := ⟨rfl, rfl, rfl, rfl, rfl⟩

/-! ### The brpc factory -/

theorem makeOptions_spec {dflt : Brpc.Options} {t m : ℕ} {p c : Str} {w w' : ℕ} {o : Brpc.Options}
    (h : Brpc.makeOptions dflt t m p c w = some (o, w')) :
    (t ≠ 0 → o.timeoutMs = t) ∧ (p ≠ [] → o.protocol = p) ∧ (p = [] → o.protocol = dflt.protocol) ∧
    (c ≠ [] → o.connType = c) ∧
    (m ≠ 0 → o.maxPayload = if "h2".toList.isPrefixOf o.protocol then m - 4096 else m) := by
  simp only [Brpc.makeOptions] at h
  by_cases hh : "h2".toList.isPrefixOf (if p ≠ [] then p else dflt.protocol) = true
  · rw [if_pos hh] at h
    generalize hM : (if m ≠ 0 then m else dflt.maxPayload) = M at h
    by_cases h1 : M ≤ 4096
    · rw [if_pos h1] at h; exact absurd h (by simp)
    · rw [if_neg h1] at h
      by_cases h2 : M ≥ 2 ^ 31 - 1
      · rw [if_pos h2] at h; exact absurd h (by simp)
      · rw [if_neg h2] at h
        simp only [Option.some.injEq, Prod.mk.injEq] at h
        obtain ⟨rfl, -⟩ := h
        refine ⟨fun ht => by simp [ht], fun hp => by simp [hp], fun hp => by simp [hp], fun hc => by simp [hc],
          fun hm => ?_⟩
        dsimp only
        rw [if_pos hh, ← hM, if_pos hm]
  · rw [if_neg hh] at h
    simp only [Option.some.injEq, Prod.mk.injEq] at h
    obtain ⟨rfl, -⟩ := h
    refine ⟨fun ht => by simp [ht], fun hp => by simp [hp], fun hp => by simp [hp], fun hc => by simp [hc],
      fun hm => ?_⟩
    dsimp only
    rw [if_neg hh, if_pos hm]

/-- C137 (d): a link that is set up has one channel for every other party, none for itself; every channel obeys the
description (`Obeys`: all settings but two, see the two violations below), and the party listens at its own
address, with its server certificate when TLS is asked for and without TLS otherwise. -/
theorem C137_brpc_partial (env : Env) (w : ℕ) (d : ContextDesc) (self : ℕ) (n : Node)
    (hl : d.linkType = "normal".toList) (h : createBrpc env w d self = .ok n) :
    n.channels.length = d.parties.length ∧
    (∀ j p, d.parties[j]? = some p → j ≠ self → ∃ c, n.channels[j]? = some (some c) ∧ Obeys d p c) ∧
    n.channels[self]? = some none ∧
    ∃ me, d.parties[self]? = some me ∧
      n.server = some (me.host, if d.enableSsl then some d.serverSsl else none) := by
  unfold createBrpc at h
  rw [if_neg (not_not.2 hl)] at h
  cases hme : d.parties[self]? with
  | none => simp [hme] at h
  | some me =>
    simp only [hme] at h
    cases ho : Brpc.makeOptions Brpc.defaultOptions d.httpTimeoutMs d.httpMaxPayload d.protocol d.connType w with
    | none => simp [ho] at h
    | some ow =>
      obtain ⟨o, w'⟩ := ow
      simp only [ho, Except.ok.injEq] at h
      subst h
      obtain ⟨h1, h2, -, h4, h5⟩ := makeOptions_spec ho
      refine ⟨by simp, ?_, ?_, me, rfl, ?_⟩
      · intro j p hj hne
        refine ⟨_, by simp only [List.getElem?_map, List.getElem?_zipIdx, hj, Option.map_some, Nat.zero_add,
          if_neg hne]; rfl, ?_⟩
        exact ⟨rfl, rfl, rfl, rfl, rfl, rfl, fun h => by simp [h],
          fun h => ⟨clientTls d.clientSsl, by simp [h], rfl, rfl, rfl, rfl⟩, h1, h2, h4, h5⟩
      · simp [List.getElem?_map, List.getElem?_zipIdx, hme]
      · simp only [serverTls]

/-- C137 (e): exactly the descriptions are refused in which the party's rank does not exist, or h2 is asked for
with a request size that leaves no room for the envelope or does not fit brpc's window. -/
theorem C137_brpc_accepts (env : Env) (w : ℕ) (d : ContextDesc) (self : ℕ) (hl : d.linkType = "normal".toList) :
    (∃ n, createBrpc env w d self = .ok n) ↔
      self < d.parties.length ∧
      ("h2".toList <+: d.protocol → d.httpMaxPayload = 0 ∨ (4096 < d.httpMaxPayload ∧ d.httpMaxPayload < 2 ^ 31 - 1)) := by
  unfold createBrpc
  rw [if_neg (not_not.2 hl)]
  by_cases hs : self < d.parties.length
  · rw [List.getElem?_eq_getElem hs]
    simp only [hs, true_and]
    have key : (Brpc.makeOptions Brpc.defaultOptions d.httpTimeoutMs d.httpMaxPayload d.protocol d.connType w).isSome
        ↔ ("h2".toList <+: d.protocol →
          d.httpMaxPayload = 0 ∨ (4096 < d.httpMaxPayload ∧ d.httpMaxPayload < 2 ^ 31 - 1)) := by
      simp only [Brpc.makeOptions]
      by_cases hp : d.protocol = []
      · have : ¬ ("h2".toList <+: ([] : Str)) := by simp
        simp only [hp, ne_eq, not_true_eq_false, if_false]
        rw [if_neg (by decide)]
        simp
      · simp only [hp, ne_eq, not_false_eq_true, if_true]
        by_cases hh : "h2".toList <+: d.protocol
        · rw [if_pos (List.isPrefixOf_iff_prefix.2 hh)]
          by_cases hm : d.httpMaxPayload = 0
          · simp only [hm, ne_eq, not_true_eq_false, if_false, Brpc.defaultOptions]
            rw [if_neg (by decide), if_neg (by decide)]
            simp
          · simp only [hm, not_false_eq_true, if_true]
            split
            · simp only [Option.isSome_none, Bool.false_eq_true, false_iff]
              intro h; rcases h hh with h | h <;> omega
            · split
              · simp only [Option.isSome_none, Bool.false_eq_true, false_iff]
                intro h; rcases h hh with h | h <;> omega
              · simp only [Option.isSome_some, true_iff]
                intro _; right; omega
        · rw [if_neg (fun h => hh (List.isPrefixOf_iff_prefix.1 h))]
          exact ⟨fun _ h => absurd h hh, fun _ => rfl⟩
    rw [← key]
    cases ho : Brpc.makeOptions Brpc.defaultOptions d.httpTimeoutMs d.httpMaxPayload d.protocol d.connType w with
    | none => simp
    | some ow => obtain ⟨o, w'⟩ := ow; simp
  · rw [List.getElem?_eq_none (by omega)]
    simp [hs]

/-- Two parties. -/
def two : List Party := [⟨"alice".toList, "127.0.0.1:9530".toList⟩, ⟨"bob".toList, "127.0.0.1:9531".toList⟩]

theorem mapM_getElem? {α β : Type} (f : α → Except Err β) : ∀ (l : List α) (bs : List β), l.mapM f = .ok bs →
    bs.length = l.length ∧ ∀ (i : ℕ) (a : α), l[i]? = some a → ∃ b, f a = .ok b ∧ bs[i]? = some b := by
  intro l
  induction l with
  | nil => intro bs hm; simp [pure, Except.pure] at hm; subst hm; simp
  | cons x xs ih =>
    intro bs hm
    rw [List.mapM_cons] at hm
    cases hx : f x with
    | error e => simp [hx, bind, Except.bind] at hm
    | ok y =>
      cases hxs : xs.mapM f with
      | error e => simp [hx, hxs, bind, Except.bind] at hm
      | ok ys =>
        simp [hx, hxs, bind, Except.bind, pure, Except.pure] at hm
        subst hm
        obtain ⟨hlen, hall⟩ := ih ys hxs
        refine ⟨by simp [hlen], ?_⟩
        intro i a hi
        cases i with
        | zero => simp at hi; subst hi; exact ⟨y, hx, by simp⟩
        | succ i => simpa using hall i a (by simpa using hi)

/-- C137 (f): the number of chunks that may be in flight is not taken from the description: every channel uses 8. -/
theorem C137_chunks_violated (env : Env) (w : ℕ) (d : ContextDesc) (self : ℕ) (n : Node)
    (h : createBrpc env w d self = .ok n) : ∀ c ∈ n.channels.filterMap id, c.chunkParallel = 8 := by
  intro c hc
  rw [List.mem_filterMap] at hc
  obtain ⟨o', ho', rfl⟩ := hc
  by_cases hl : d.linkType ≠ "normal".toList
  · unfold createBrpc at h
    rw [if_pos hl] at h
    unfold createBlackbox at h
    cases hme : d.parties[self]? with
    | none => simp [hme] at h
    | some me =>
      simp only [hme] at h
      cases ho : Brpc.makeOptions blackboxDefaults d.httpTimeoutMs d.httpMaxPayload d.protocol d.connType w with
      | none => simp [ho] at h
      | some ow =>
        obtain ⟨o, w'⟩ := ow
        simp only [ho] at h
        by_cases hpr : o.protocol ≠ "http".toList ∧ o.protocol ≠ "h2".toList
        · rw [if_pos hpr] at h; simp at h
        · rw [if_neg hpr] at h
          split at h
          · simp at h
          · rename_i cs hcs
            simp only [Except.ok.injEq] at h
            subst h
            obtain ⟨hlen, hall⟩ := mapM_getElem? _ _ _ hcs
            obtain ⟨j, hj⟩ := List.mem_iff_getElem?.1 ho'
            have hjl : j < d.parties.length := by
              obtain ⟨hlt, -⟩ := List.getElem?_eq_some_iff.1 hj
              simpa [hlen] using hlt
            obtain ⟨b, hb, hb'⟩ := hall j (d.parties[j], j) (by simp [List.getElem?_zipIdx, hjl])
            have : b = some c := by
              have := hb'.symm.trans hj
              simpa using this
            subst this
            by_cases hjs : j = self
            · simp [hjs] at hb
            · simp only [if_neg hjs] at hb
              cases ha : blackboxAddress env me d.parties[j] with
              | error e => simp [ha] at hb
              | ok a =>
                simp only [ha, Except.ok.injEq, Option.some.injEq] at hb
                subst hb; rfl
  · unfold createBrpc at h
    rw [if_neg hl] at h
    cases hme : d.parties[self]? with
    | none => simp [hme] at h
    | some me =>
      simp only [hme] at h
      cases ho : Brpc.makeOptions Brpc.defaultOptions d.httpTimeoutMs d.httpMaxPayload d.protocol d.connType w with
      | none => simp [ho] at h
      | some ow =>
        obtain ⟨o, w'⟩ := ow
        simp only [ho, Except.ok.injEq] at h
        subst h
        simp only [List.mem_map] at ho'
        obtain ⟨x, -, hx⟩ := ho'
        split at hx
        · simp at hx
        · simp only [id, Option.some.injEq] at hx
          subst hx; rfl

/-- ... for instance when one chunk at a time is asked for. -/
example : ∃ n c, createBrpc (fun _ => none) 0 { ContextDesc.default with parties := two, chunkParallel := 1 } 0 = .ok n ∧
    n.channels[1]? = some (some c) ∧ c.chunkParallel = 8 ∧
    Obeys { ContextDesc.default with parties := two, chunkParallel := 1 } ⟨"bob".toList, "127.0.0.1:9531".toList⟩ c := by
  have hl : ({ ContextDesc.default with parties := two, chunkParallel := 1 } : ContextDesc).linkType = "normal".toList := rfl
  cases hn : createBrpc (fun _ => none) 0 { ContextDesc.default with parties := two, chunkParallel := 1 } 0 with
  | error e => exact absurd ((C137_brpc_accepts (fun _ => none) 0 _ 0 hl).2 ⟨by decide, by decide⟩) (by simp [hn])
  | ok n =>
    obtain ⟨c, hc, hob⟩ := (C137_brpc_partial _ _ _ _ _ hl hn).2.1 1 _ rfl (by decide)
    exact ⟨n, c, rfl, hc, C137_chunks_violated _ _ _ _ _ hn c (List.mem_filterMap.2 ⟨_, List.mem_of_getElem? hc, rfl⟩), hob⟩

/-- C137 (g): cipher suites that are asked for on the client side are dropped, those of the server side are used. -/
theorem C137_ciphers_violated :
    ∃ d n c, createBrpc (fun _ => none) 0 d 0 = .ok n ∧ n.channels[1]? = some (some c) ∧ d.enableSsl = true ∧
      d.clientSsl.ciphers = "ECC-SM2-SM4-GCM-SM3".toList ∧ c.tls.map SslOptions.ciphers = some [] ∧
      n.server.map (fun s => s.2.map SslOptions.ciphers) = some (some "ECC-SM2-SM4-GCM-SM3".toList) := by
  refine ⟨{ ContextDesc.default with
    parties := two, enableSsl := true
    clientSsl := { SslOptions.default with ciphers := "ECC-SM2-SM4-GCM-SM3".toList }
    serverSsl := { SslOptions.default with ciphers := "ECC-SM2-SM4-GCM-SM3".toList } },
    ⟨[none, some ⟨"127.0.0.1:9531".toList, some SslOptions.default,
      ⟨20000, 1048576, "baidu_std".toList, "single".toList⟩, 30000, true, RetryOptions.default, 10, false, 8⟩],
      some ("127.0.0.1:9530".toList, some { SslOptions.default with ciphers := "ECC-SM2-SM4-GCM-SM3".toList }), 0⟩,
    ⟨"127.0.0.1:9531".toList, some SslOptions.default,
      ⟨20000, 1048576, "baidu_std".toList, "single".toList⟩, 30000, true, RetryOptions.default, 10, false, 8⟩,
    by decide, by decide, rfl, rfl, rfl, rfl⟩

/-! ### The black-box factory -/

/-- C137 (h): a description with the default protocol is never accepted for a black-box link, although the
transport's own default (http) would do; a user has to name the protocol. -/
theorem C137_blackbox_default_violated (env : Env) (w : ℕ) (d : ContextDesc) (self : ℕ)
    (hl : d.linkType = "blackbox".toList) (hp : d.protocol = ContextDesc.default.protocol) :
    ∀ n, createBrpc env w d self ≠ .ok n := by
  intro n h
  unfold createBrpc at h
  rw [if_pos (by rw [hl]; decide)] at h
  unfold createBlackbox at h
  cases hme : d.parties[self]? with
  | none => simp [hme] at h
  | some me =>
    simp only [hme] at h
    cases ho : Brpc.makeOptions blackboxDefaults d.httpTimeoutMs d.httpMaxPayload d.protocol d.connType w with
    | none => simp [ho] at h
    | some ow =>
      obtain ⟨o, w'⟩ := ow
      simp only [ho] at h
      obtain ⟨-, h2, -, -, -⟩ := makeOptions_spec ho
      have : o.protocol = "baidu_std".toList := by
        rw [h2 (by rw [hp]; decide), hp]; rfl
      rw [if_pos (by rw [this]; decide)] at h
      simp at h

theorem blackboxAddress_ok {env : Env} {me p : Party} {a : Str} (h : blackboxAddress env me p = .ok a) :
    ∃ host, env "system.transport".toList = some host ∧ a = stripScheme host.length host ∧
      (env ("config.inst_id.".toList ++ p.id)).isSome ∧ (env "config.session_id".toList).isSome := by
  unfold blackboxAddress at h
  generalize env "system.transport".toList = x at *
  generalize env ("config.inst_id.".toList ++ me.id) = y1 at *
  generalize env ("config.inst_id.".toList ++ p.id) = y2 at *
  generalize env "config.trace_id".toList = y3 at *
  generalize env "config.token".toList = y4 at *
  generalize env "config.session_id".toList = y5 at *
  cases x with
  | none => simp at h
  | some host =>
    cases y1 <;> cases y2 <;> cases y3 <;> cases y4 <;> cases y5 <;>
      simp_all

/-- C137 (i): a black-box link that is set up talks to the service named in the environment, over http or h2, with
the timeouts, retries, throttling and TLS settings of the description; it listens nowhere.  What to do after an
asynchronous error and whether messages are numbered are not taken from the description: the process is never
ended, and messages are numbered. -/
theorem C137_blackbox_partial (env : Env) (w : ℕ) (d : ContextDesc) (self : ℕ) (n : Node)
    (hl : d.linkType ≠ "normal".toList) (h : createBrpc env w d self = .ok n) :
    n.channels.length = d.parties.length ∧ n.channels[self]? = some none ∧ n.server = none ∧
    (d.protocol = [] ∨ d.protocol = "http".toList ∨ d.protocol = "h2".toList) ∧
    (∀ j p, d.parties[j]? = some p → j ≠ self → ∃ c host, n.channels[j]? = some (some c) ∧
      env "system.transport".toList = some host ∧ c.address = stripScheme host.length host ∧
      (env ("config.inst_id.".toList ++ p.id)).isSome ∧ (env "config.session_id".toList).isSome ∧
      Obeys { d with exitIfAsyncError := false, disableMsgSeqId := false } ⟨p.id, c.address⟩ c) := by
  unfold createBrpc at h
  rw [if_pos hl] at h
  unfold createBlackbox at h
  cases hme : d.parties[self]? with
  | none => simp [hme] at h
  | some me =>
    simp only [hme] at h
    cases ho : Brpc.makeOptions blackboxDefaults d.httpTimeoutMs d.httpMaxPayload d.protocol d.connType w with
    | none => simp [ho] at h
    | some ow =>
      obtain ⟨o, w'⟩ := ow
      simp only [ho] at h
      obtain ⟨h1, h2, -, h4, h5⟩ := makeOptions_spec ho
      by_cases hpr : o.protocol ≠ "http".toList ∧ o.protocol ≠ "h2".toList
      · rw [if_pos hpr] at h; simp at h
      · rw [if_neg hpr] at h
        split at h
        · simp at h
        · rename_i cs hcs
          simp only [Except.ok.injEq] at h
          subst h
          obtain ⟨hlen, hall⟩ := mapM_getElem? _ _ _ hcs
          refine ⟨by simp [hlen], ?_, rfl, ?_, ?_⟩
          · obtain ⟨b, hb, hb'⟩ := hall self (me, self) (by simp [List.getElem?_zipIdx, hme])
            simp only [if_true, Except.ok.injEq] at hb
            subst hb; exact hb'
          · by_cases hp : d.protocol = []
            · exact .inl hp
            · rw [h2 hp] at hpr
              right; tauto
          · intro j p hj hne
            obtain ⟨b, hb, hb'⟩ := hall j (p, j) (by simp [List.getElem?_zipIdx, hj])
            simp only [if_neg hne] at hb
            cases ha : blackboxAddress env me p with
            | error e => simp [ha] at hb
            | ok a =>
              simp only [ha, Except.ok.injEq] at hb
              subst hb
              obtain ⟨host, e1, e2, e3, e4⟩ := blackboxAddress_ok ha
              refine ⟨_, host, hb', e1, e2, e3, e4, ?_⟩
              exact ⟨rfl, rfl, rfl, rfl, rfl, rfl, fun h => by simp [show d.enableSsl = false from h],
                fun h => ⟨clientTls d.clientSsl, by simp [show d.enableSsl = true from h], rfl, rfl, rfl, rfl⟩, h1, h2, h4, h5⟩

/-- A black-box link of two parties that is set up. -/
example : ∃ n, createBrpc (fun _ => some "http://gw:80".toList) 0
    { ContextDesc.default with parties := two, linkType := "blackbox".toList, protocol := "http".toList } 1 = .ok n ∧
    n.channels[0]?.bind (fun c => c.map ChannelCfg.address) = some "gw:80".toList := ⟨_, rfl, by decide⟩

end Yacl.Link.Desc
