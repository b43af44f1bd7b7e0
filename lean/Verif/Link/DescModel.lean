import Verif.Link.Brpc
import Mathlib.Data.BitVec
import Mathlib.Data.List.Basic

/-! Link descriptions: yacl/link/context.h (`ContextDesc`, `ContextDescHasher`), yacl/link/ssl_options.h,
yacl/utils/hash_combine.h, and what the factories make of a description: yacl/link/factory_brpc.cc,
yacl/link/factory_brpc_blackbox.cc, yacl/link/factory_mem.cc.  Properties C137, C138. -/

namespace Yacl.Link.Desc

open Yacl.Channel.Sender (RetryOptions RetryOptionsProto)

abbrev Str := List Char

/-- context.h L51-66 `ContextDesc::Party`; also link.proto L19-23 `PartyProto`, which has the same fields. -/
structure Party where
  id : Str
  host : Str
deriving DecidableEq, Repr

/-- ssl_options.h L44-72 `SSLOptions`, with `CertInfo` and `VerifyOptions` spread out. -/
structure SslOptions where
  certPath : Str
  keyPath : Str
  depth : ℤ
  caPath : Str
  ciphers : Str
deriving DecidableEq, Repr

/-- link.proto L26-40 `SSLOptionsProto`. -/
structure SslOptionsProto where
  certPath : Str
  keyPath : Str
  depth : ℤ
  caPath : Str
deriving DecidableEq, Repr

/-- ssl_options.h: default member values. -/
def SslOptions.default : SslOptions := ⟨[], [], 0, [], []⟩

/-- ssl_options.h L62-69: constructor from the protobuf message. -/
def SslOptions.ofProto (pb : SslOptionsProto) : SslOptions :=
  { SslOptions.default with
    certPath := pb.certPath, keyPath := pb.keyPath, depth := pb.depth, caPath := pb.caPath }

/-- context.h L36-141 `struct ContextDesc`.  The 32 and 64 bit numbers are natural numbers (nothing is computed with
them here). -/
structure ContextDesc where
  id : Str
  parties : List Party
  connectRetryTimes : ℕ
  connectRetryIntervalMs : ℕ
  recvTimeoutMs : ℕ
  httpMaxPayload : ℕ
  httpTimeoutMs : ℕ
  throttleWindow : ℕ
  chunkParallel : ℕ
  protocol : Str
  connType : Str
  enableSsl : Bool
  clientSsl : SslOptions
  serverSsl : SslOptions
  exitIfAsyncError : Bool
  linkType : Str
  retry : RetryOptions
  disableMsgSeqId : Bool
deriving DecidableEq, Repr

/-- link.proto L66-137 `ContextDescProto`; unset scalars read as 0, unset strings as empty. -/
structure ContextDescProto where
  id : Str
  parties : List Party
  connectRetryTimes : ℕ
  connectRetryIntervalMs : ℕ
  recvTimeoutMs : ℕ
  httpMaxPayload : ℕ
  httpTimeoutMs : ℕ
  throttleWindow : ℕ
  protocol : Str
  connType : Str
  enableSsl : Bool
  clientSsl : SslOptionsProto
  serverSsl : SslOptionsProto
  chunkParallel : ℕ
  retry : RetryOptionsProto
deriving DecidableEq, Repr

/-- context.h L39-49 and the member initialisers of L69-139: `ContextDesc()`. -/
def ContextDesc.default : ContextDesc where
  id := "root".toList
  parties := []
  connectRetryTimes := 10
  connectRetryIntervalMs := 1000
  recvTimeoutMs := 30 * 1000
  httpMaxPayload := 1024 * 1024
  httpTimeoutMs := 20 * 1000
  throttleWindow := 10
  chunkParallel := 8
  protocol := "baidu_std".toList
  connType := []
  enableSsl := false
  clientSsl := SslOptions.default
  serverSsl := SslOptions.default
  exitIfAsyncError := true
  linkType := "normal".toList
  retry := RetryOptions.default
  disableMsgSeqId := false

/-- `x ? x : d`. -/
def orElse (x d : ℕ) : ℕ := if x ≠ 0 then x else d

/-- context.h L147-184: constructor from the protobuf message. -/
def ContextDesc.ofProto (pb : ContextDescProto) : ContextDesc where
  id := if pb.id.length ≠ 0 then pb.id else ContextDesc.default.id
  parties := pb.parties
  connectRetryTimes := orElse pb.connectRetryTimes ContextDesc.default.connectRetryTimes
  connectRetryIntervalMs := orElse pb.connectRetryIntervalMs ContextDesc.default.connectRetryIntervalMs
  recvTimeoutMs := orElse pb.recvTimeoutMs ContextDesc.default.recvTimeoutMs
  httpMaxPayload := orElse pb.httpMaxPayload ContextDesc.default.httpMaxPayload
  httpTimeoutMs := orElse pb.httpTimeoutMs ContextDesc.default.httpTimeoutMs
  throttleWindow := orElse pb.throttleWindow ContextDesc.default.throttleWindow
  chunkParallel := orElse pb.chunkParallel ContextDesc.default.chunkParallel
  protocol := if pb.protocol.length ≠ 0 then pb.protocol else ContextDesc.default.protocol
  connType := pb.connType
  enableSsl := pb.enableSsl
  clientSsl := SslOptions.ofProto pb.clientSsl
  serverSsl := SslOptions.ofProto pb.serverSsl
  exitIfAsyncError := ContextDesc.default.exitIfAsyncError
  linkType := ContextDesc.default.linkType
  retry := RetryOptions.ofProto pb.retry
  disableMsgSeqId := ContextDesc.default.disableMsgSeqId

/-! ### What a factory configures -/

/-- One channel to a peer: the arguments of the `Channel` constructor and setters, and of brpc's channel. -/
structure ChannelCfg where
  /-- where brpc connects to -/
  address : Str
  /-- brpc TLS settings, `none` for plain connections -/
  tls : Option SslOptions
  /-- protocol, connection type, request timeout, bytes per chunk -/
  opts : Brpc.Options
  recvTimeoutMs : ℕ
  exitIfAsyncError : Bool
  retry : RetryOptions
  throttleWindow : ℕ
  disableMsgSeqId : Bool
  chunkParallel : ℕ
deriving DecidableEq, Repr

/-- The link of one rank: its channels by rank (none for itself), where it listens, and brpc's window flag. -/
structure Node where
  channels : List (Option ChannelCfg)
  /-- listening address and TLS settings; `none` when the messages are fetched from a service -/
  server : Option (Str × Option SslOptions)
  window : ℕ
deriving DecidableEq, Repr

inductive Err where
  | badRank
  | badOptions
  | badProtocol
  | environment
deriving DecidableEq, Repr

/-- brpc_link.cc L107-128 `SetPeerHost` and brpc_blackbox_link.cc L165-175: the four copied fields; `ciphers` keeps
brpc's default. -/
def clientTls (o : SslOptions) : SslOptions :=
  { SslOptions.default with certPath := o.certPath, keyPath := o.keyPath, depth := o.depth, caPath := o.caPath }

/-- brpc_link.cc L83-93 `ReceiverLoopBrpc::Start`. -/
def serverTls (o : SslOptions) : SslOptions :=
  { SslOptions.default with
    certPath := o.certPath, keyPath := o.keyPath, depth := o.depth, caPath := o.caPath, ciphers := o.ciphers }

/-- channel.h L340: value of a fresh channel; no factory calls `SetChunkParallelSendSize`. -/
def freshChunkParallel : ℕ := 8

/-- brpc_blackbox_link.h L80-82. -/
def blackboxDefaults : Brpc.Options := ⟨10 * 1000, 512 * 1024, "http".toList, []⟩

/-- The environment of the process (`getenv`). -/
abbrev Env := Str → Option Str

/-- brpc_blackbox_link.cc L189 `StrReplaceAll({{"http://", ""}, {"https://", ""}})`. -/
def stripScheme : ℕ → Str → Str
  | 0, s => s
  | _ + 1, [] => []
  | n + 1, c :: cs =>
    if "https://".toList.isPrefixOf (c :: cs) then stripScheme n ((c :: cs).drop 8)
    else if "http://".toList.isPrefixOf (c :: cs) then stripScheme n ((c :: cs).drop 7)
    else c :: stripScheme n cs

/-- brpc_blackbox_link.cc L180-236 `SetPeerHost`: the service address, or a refusal when a variable is missing. -/
def blackboxAddress (env : Env) (self peer : Party) : Except Err Str :=
  match env "system.transport".toList with
  | none => .error .environment
  | some host =>
    if (env ("config.inst_id.".toList ++ self.id)).isNone then .error .environment
    else if (env ("config.inst_id.".toList ++ peer.id)).isNone then .error .environment
    else if (env "config.trace_id".toList).isNone then .error .environment
    else if (env "config.token".toList).isNone then .error .environment
    else if (env "config.session_id".toList).isNone then .error .environment
    else .ok (stripScheme host.length host)

/-- factory_brpc_blackbox.cc L73-116 `CreateContext`. -/
def createBlackbox (env : Env) (window : ℕ) (d : ContextDesc) (self : ℕ) : Except Err Node :=
  match d.parties[self]? with
  | none => .error .badRank
  | some me =>
    match Brpc.makeOptions blackboxDefaults d.httpTimeoutMs d.httpMaxPayload d.protocol d.connType window with
    | none => .error .badOptions
    | some (o, w) =>
      if o.protocol ≠ "http".toList ∧ o.protocol ≠ "h2".toList then .error .badProtocol
      else
        let chan (r : ℕ) (p : Party) : Except Err (Option ChannelCfg) :=
          if r = self then .ok none
          else match blackboxAddress env me p with
            | .error e => .error e
            | .ok a => .ok (some {
                address := a
                tls := if d.enableSsl then some (clientTls d.clientSsl) else none
                opts := o
                recvTimeoutMs := d.recvTimeoutMs
                exitIfAsyncError := false
                retry := d.retry
                throttleWindow := d.throttleWindow
                disableMsgSeqId := false
                chunkParallel := freshChunkParallel })
        match (d.parties.zipIdx.mapM fun pr => chan pr.2 pr.1) with
        | .error e => .error e
        | .ok cs => .ok ⟨cs, none, w⟩

/-- factory_brpc.cc L32-79 `CreateContext`.  Starting the server and connecting are taken to succeed. -/
def createBrpc (env : Env) (window : ℕ) (d : ContextDesc) (self : ℕ) : Except Err Node :=
  if d.linkType ≠ "normal".toList then createBlackbox env window d self
  else
    match d.parties[self]? with
    | none => .error .badRank
    | some me =>
      match Brpc.makeOptions Brpc.defaultOptions d.httpTimeoutMs d.httpMaxPayload d.protocol d.connType window with
      | none => .error .badOptions
      | some (o, w) =>
        let chan (r : ℕ) (p : Party) : Option ChannelCfg :=
          if r = self then none
          else some {
            address := p.host
            tls := if d.enableSsl then some (clientTls d.clientSsl) else none
            opts := o
            recvTimeoutMs := d.recvTimeoutMs
            exitIfAsyncError := d.exitIfAsyncError
            retry := d.retry
            throttleWindow := d.throttleWindow
            disableMsgSeqId := d.disableMsgSeqId
            chunkParallel := freshChunkParallel }
        .ok ⟨d.parties.zipIdx.map (fun pr => chan pr.2 pr.1),
          some (me.host, if d.enableSsl then some (serverTls d.serverSsl) else none), w⟩

/-! ### Hashing and in-process sessions -/

/-- `std::hash` of the hashed types. -/
structure Hash where
  str : Str → BitVec 64
  u32 : ℕ → BitVec 64
  u64 : ℕ → BitVec 64

/-- hash_combine.h L24-28. -/
def hashCombine (seed h : BitVec 64) : BitVec 64 :=
  seed ^^^ (h + 0x9e3779b9#64 + (seed <<< 6) + (seed >>> 2))

/-- context.h L187-205 `ContextDescHasher`; a call with several values combines them in order (hash_combine.h
L31-35). -/
def hashDesc (H : Hash) (d : ContextDesc) : BitVec 64 :=
  let seed := hashCombine 0 (H.str d.id)
  let seed := d.parties.foldl (fun s p => hashCombine (hashCombine s (H.str p.id)) (H.str p.host)) seed
  [H.u32 d.connectRetryTimes, H.u32 d.connectRetryIntervalMs, H.u64 d.recvTimeoutMs, H.u32 d.httpMaxPayload,
    H.u32 d.httpTimeoutMs, H.u32 d.throttleWindow, H.str d.protocol, H.str d.connType,
    H.str d.linkType].foldl hashCombine seed

/-- context.h L141-143 `operator==`. -/
def same (a b : ContextDesc) : Bool := decide (a.id = b.id) && decide (a.parties = b.parties)

/-- factory_mem.cc L27-35 `MemSession`: identified by a serial number; `desc` is the description its contexts carry
(L72-81). -/
structure Session where
  serial : ℕ
  desc : ContextDesc
deriving DecidableEq, Repr

/-- factory_mem.cc L38-39: `_sessions`, newest first, and the serial number of the next session.  Keys and sessions'
descriptions are the same object's copies (L91). -/
structure Sessions where
  entries : List Session
  next : ℕ

def Sessions.init : Sessions := ⟨[], 0⟩

/-- `unordered_map::find` with `ContextDescHasher` and `==`: an entry is found when the stored hash code and the key
both match (libstdc++ keeps the hash code of each node for a hasher that may throw, and this one is not `noexcept`). -/
def lookup (H : Hash) (S : Sessions) (d : ContextDesc) : Option Session :=
  S.entries.find? fun e => hashDesc H e.desc == hashDesc H d && same e.desc d

/-- A context handed out: which session, which rank, and the description it carries. -/
structure Ctx where
  session : ℕ
  rank : ℕ
  desc : ContextDesc
deriving DecidableEq, Repr

/-- factory_mem.cc L86-110 `CreateOrGetSession` and `FactoryMem::CreateContext`; `none` is the exception.  The whole
call holds the mutex, so a history is a sequence of calls. -/
def createMem (H : Hash) (S : Sessions) (d : ContextDesc) (rank : ℕ) : Option Ctx × Sessions :=
  if rank ≥ d.parties.length then (none, S)
  else match lookup H S d with
    | some e => (some ⟨e.serial, rank, e.desc⟩, S)
    | none => (some ⟨S.next, rank, d⟩, ⟨⟨S.next, d⟩ :: S.entries, S.next + 1⟩)

/-- Any number of calls, from any threads, in the order in which they take the mutex. -/
def runMem (H : Hash) : Sessions → List (ContextDesc × ℕ) → List (Option Ctx) × Sessions
  | S, [] => ([], S)
  | S, (d, r) :: cs =>
    let (c, S') := createMem H S d r
    let (rest, S'') := runMem H S' cs
    (c :: rest, S'')

end Yacl.Link.Desc
