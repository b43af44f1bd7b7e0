import Mathlib.Data.Nat.Log
import Mathlib.Tactic.Common

/-! C144: what the two parties of the OT and VOLE protocols put on the wire, in which order, and what each reads.

A message is known by what it is (`kind`, `idx`) and by the bytes it carries.  A party's script is the list of its
`SendAsync` and `Recv` calls, in program order.  Simplifications: the values inside the messages are not modelled (other
files do that); a number sent by `SerializeUint128` counts as its 16 bytes, without framing; sizes are natural numbers
(no wrap-around); `YACL_ENFORCE`s on the arguments are taken to pass. -/

namespace Yacl.Scripts

/-! ### The link between two parties -/

/-- One message on the link. -/
structure Msg where
  kind : String
  idx : ℕ
  bytes : ℕ
deriving DecidableEq, Repr

/-- One link call of a party.  `recv m` is a `Recv` whose code goes on correctly only with the message `m`: the loops and
copies after it read `m.bytes` bytes and use them as `m.kind` number `m.idx`. -/
inductive Act where
  | send (m : Msg)
  | recv (m : Msg)
deriving DecidableEq, Repr

/-- Result of letting one party make its next link call. -/
inductive Res (α : Type) where
  /-- the call returned -/
  | ok (a : α)
  /-- `Recv` with nothing to read: the party waits -/
  | waiting
  /-- the party has no call left -/
  | finished
  /-- `Recv` returned a message other than the one the code needs -/
  | mismatch

/-- context.h `SendAsync` and `Recv` on a FIFO channel (context.cc numbers the messages of a direction; delivery in that
order is C04): the next call of a party with inbox `i`
and peer inbox `o`. -/
def act : List Act → List Msg → List Msg → Res (List Act × List Msg × List Msg)
  | [], _, _ => .finished
  | .send m :: r, i, o => .ok (r, i, o ++ [m])
  | .recv _ :: _, [], _ => .waiting
  | .recv m :: r, x :: i, o => if x = m then .ok (r, i, o) else .mismatch

/-- Two parties: what each still has to do and the messages on the way to each. -/
structure Net where
  p : List Act
  q : List Act
  toP : List Msg
  toQ : List Msg
deriving DecidableEq

/-- One scheduling decision: party `P` (`true`) or party `Q` (`false`) makes its next call. -/
def step (who : Bool) (s : Net) : Res Net :=
  if who then
    match act s.p s.toP s.toQ with
    | .ok (r, i, o) => .ok ⟨r, s.q, i, o⟩
    | .waiting => .waiting
    | .finished => .finished
    | .mismatch => .mismatch
  else
    match act s.q s.toQ s.toP with
    | .ok (r, i, o) => .ok ⟨s.p, r, o, i⟩
    | .waiting => .waiting
    | .finished => .finished
    | .mismatch => .mismatch

/-- `n` successful calls, in any order the scheduler likes. -/
inductive Run : ℕ → Net → Net → Prop
  | nil (s) : Run 0 s s
  | cons {n s t u} (who : Bool) : step who s = .ok t → Run n t u → Run (n + 1) s u

/-- Both parties have returned and nothing is left unread. -/
def Done (s : Net) : Prop := s.p = [] ∧ s.q = [] ∧ s.toP = [] ∧ s.toQ = []

/-! ### Common pieces -/

/-- crypto/tools/common.h L24-28 `SyncSeedSend`. -/
def seedSend : List Act := [.send ⟨"seed", 0, 16⟩]
/-- crypto/tools/common.h L30-33 `SyncSeedRecv`. -/
def seedRecv : List Act := [.recv ⟨"seed", 0, 16⟩]

/-- math/gadget.h `DivCeil`, and the `(a + b - 1) / b` written out in the protocols. -/
def divCeil (a b : ℕ) : ℕ := (a + b - 1) / b

/-! ### Base OT -/

/-- Number of packs in the reply: portable_ot_interface.cc L70 (one per OT), x86_asm_ot_interface.cc L46, L82 (fours). -/
def basePacks (x86 : Bool) (n : ℕ) : ℕ := if x86 then divCeil n 4 * 4 else n

/-- portable_ot_interface.cc L74-86, x86_asm_ot_interface.cc L87-100: `Send`. -/
def baseSend (x86 : Bool) (n : ℕ) : List Act :=
  [.send ⟨"S_PACK", 0, 32⟩, .recv ⟨"RS_PACK", 0, basePacks x86 n * 32⟩]

/-- portable_ot_interface.cc L25-72, x86_asm_ot_interface.cc L31-84: `Recv`. -/
def baseRecv (x86 : Bool) (n : ℕ) : List Act :=
  [.recv ⟨"S_PACK", 0, 32⟩, .send ⟨"RS_PACK", 0, basePacks x86 n * 32⟩]

/-! ### IKNP, KOS, KKRT -/

/-- iknp_ote.cc L39-69: `block_num` receives of one 128 by 128 bit matrix. -/
def iknpSend (n : ℕ) : List Act :=
  (List.range (divCeil n 128 * 128 / 128)).map fun i => .recv ⟨"IKNP", i, 128 * 16⟩

/-- iknp_ote.cc L109-162: `batch_num` sends. -/
def iknpRecv (n : ℕ) : List Act :=
  (List.range (divCeil n 128)).map fun i => .send ⟨"IKNP", i, 128 * 16⟩

/-- kos_ote.cc L114-172. -/
def kosSend (n : ℕ) : List Act :=
  ((List.range (divCeil (n + 64) 128)).map fun i => .recv ⟨"KOS", i, 128 * 16⟩) ++ seedSend ++
    [.recv ⟨"KOS-CHECK", 0, (128 + 1) * 8⟩]

/-- kos_ote.cc L220-283. -/
def kosRecv (n : ℕ) : List Act :=
  ((List.range (divCeil (n + 64) 128)).map fun i => .send ⟨"KOS", i, 128 * 16⟩) ++ seedRecv ++
    [.send ⟨"KOS-CHECK", 0, (128 + 1) * 8⟩]

/-- kkrt_ote.cc L43-47 `PrcInit`: both parties run it, sending first; party `1` is the peer. -/
def prcInit (me : ℕ) : List Act := [.send ⟨"SEED", me, 16⟩, .recv ⟨"SEED", 1 - me, 16⟩]

/-- kkrt_ote.cc L152-211 `KkrtOtExtSend`. -/
def kkrtSend (n : ℕ) : List Act :=
  prcInit 0 ++ (List.range (divCeil n 128)).map fun i => .recv ⟨"KKRT", i, 128 * 4 * 16⟩

/-- kkrt_ote.cc L214-280 `KkrtOtExtRecv`. -/
def kkrtRecv (n : ℕ) : List Act :=
  prcInit 1 ++ (List.range (divCeil n 128)).map fun i => .send ⟨"KKRT", i, 128 * 4 * 16⟩

/-- kkrt_ote.cc L281-376: `Init`, then one `RecvCorrection` per count.  The messages are told apart by their number. -/
def kkrtObjSend (counts : List ℕ) : List Act :=
  prcInit 0 ++ counts.zipIdx.map fun c => .recv ⟨"KKRT-CORR", c.2, c.1 * (4 * 16)⟩

/-- kkrt_ote.cc L381-490: `Init`, then one `SendCorrection` per count. -/
def kkrtObjRecv (counts : List ℕ) : List Act :=
  prcInit 1 ++ counts.zipIdx.map fun c => .send ⟨"KKRT-CORR", c.2, c.1 * (4 * 16)⟩

/-! ### SGRR and GYWZ -/

/-- sgrr_ote.cc L219-268 `SgrrOtExtSend`; `masked_choice` has at most 128 bits, one block. -/
def sgrrSend (n : ℕ) (mal : Bool) : List Act :=
  [.recv ⟨"SGRR-CHOICE", 0, divCeil (Nat.clog 2 n) 128 * 16⟩, .send ⟨"SGRR-CORR", 0, Nat.clog 2 n * 2 * 16⟩] ++
    if mal then [.send ⟨"SGRR-PROOF", 0, 64⟩] else []

/-- sgrr_ote.cc L141-217 `SgrrOtExtRecv`. -/
def sgrrRecv (n : ℕ) (mal : Bool) : List Act :=
  [.send ⟨"SGRR-CHOICE", 0, divCeil (Nat.clog 2 n) 128 * 16⟩, .recv ⟨"SGRR-CORR", 0, Nat.clog 2 n * 2 * 16⟩] ++
    if mal then [.recv ⟨"SGRR-PROOF", 0, 64⟩] else []

/-- sgrr_ote.h L83-88 `SgrrOtExtHelper`. -/
def sgrrHelper (n : ℕ) (mal : Bool) : ℕ := Nat.clog 2 n * 16 * 2 + if mal then 32 * 2 else 0

/-- sgrr_ote.cc L285-296 `SgrrOtExtSend_fixed_index`. -/
def sgrrFixedSend (n : ℕ) (mal : Bool) : List Act := [.send ⟨"SGRR-CORR", 0, sgrrHelper n mal⟩]

/-- sgrr_ote.cc L273-283 `SgrrOtExtRecv_fixed_index`. -/
def sgrrFixedRecv (n : ℕ) (mal : Bool) : List Act := [.recv ⟨"SGRR-CORR", 0, sgrrHelper n mal⟩]

/-- gywz_ote.cc L170-196 `GywzOtExtSend`; `i` numbers the calls of a caller's loop. -/
def gywzSend (i n : ℕ) : List Act :=
  [.recv ⟨"GYWZ-CHOICE", i, divCeil (Nat.clog 2 n) 128 * 16⟩, .send ⟨"GYWZ", i, 16 * Nat.clog 2 n⟩]

/-- gywz_ote.cc L137-168 `GywzOtExtRecv`; it enforces that the choices fill one block. -/
def gywzRecv (i n : ℕ) : List Act :=
  [.send ⟨"GYWZ-CHOICE", i, divCeil (Nat.clog 2 n) 128 * 16⟩, .recv ⟨"GYWZ", i, 16 * Nat.clog 2 n⟩]

/-- gywz_ote.cc L228-254 `GywzOtExtSend_ferret`, L275-290 `GywzOtExtSend_fixed_index`. -/
def gywzFixedSend (i n : ℕ) : List Act := [.send ⟨"GYWZ", i, 16 * Nat.clog 2 n⟩]

/-- gywz_ote.cc L198-226 `GywzOtExtRecv_ferret`, L256-273 `GywzOtExtRecv_fixed_index`. -/
def gywzFixedRecv (i n : ℕ) : List Act := [.recv ⟨"GYWZ", i, 16 * Nat.clog 2 n⟩]

/-! ### SoftSpoken -/

/-- softspoken_ote.cc L186-213, L216-236: the `step_` member after construction. -/
def ssStep (k step : ℕ) : ℕ := if step = 0 then (if k ≤ 2 then 64 else if k ≤ 4 then 32 else 16) else step

/-- softspoken_ote.cc L189, L220: `pprf_num_`. -/
def pprfNum (k : ℕ) : ℕ := divCeil 128 k

/-- softspoken_ote.cc L252-313 `OneTimeSetup` of the OT sender, with base OTs given. -/
def ssSetupSend (k : ℕ) (mal : Bool) : List Act :=
  [.recv ⟨"SS-SETUP", 0, 128 * 2 * 16 + pprfNum k * (if mal then 64 else 0)⟩]

/-- softspoken_ote.cc L326-362 `OneTimeSetup` of the OT receiver, with base OTs given. -/
def ssSetupRecv (k : ℕ) (mal : Bool) : List Act :=
  [.send ⟨"SS-SETUP", 0, 128 * 2 * 16 + pprfNum k * (if mal then 64 else 0)⟩]

/-- softspoken_ote.cc L239-250: `OneTimeSetup` of the OT sender runs the base OTs as their receiver. -/
def ssInitSend (x86 : Bool) (k : ℕ) (mal : Bool) : List Act := baseRecv x86 128 ++ ssSetupSend k mal

/-- softspoken_ote.cc L315-324: `OneTimeSetup` of the OT receiver runs the base OTs as their sender. -/
def ssInitRecv (x86 : Bool) (k : ℕ) (mal : Bool) : List Act := baseSend x86 128 ++ ssSetupRecv k mal

/-- softspoken_ote.cc L629, L769, L889, L1004: `super_batch_num`. -/
def superNum (st n : ℕ) : ℕ := n / (st * 128)

/-- softspoken_ote.cc L627-632 and its three copies: `batch_num`. -/
def batchNum (st n : ℕ) : ℕ := divCeil (divCeil (n + 64) 128 * 128 - superNum st n * (st * 128)) 128

/-- softspoken_ote.cc L616-747, L749-871: both `Send`s of an initialised OT sender built with the given `step`. -/
def ssSend (k step : ℕ) (mal : Bool) (n : ℕ) : List Act :=
  ((List.range (superNum (ssStep k step) n)).map fun t => .recv ⟨"SS-U", t, ssStep k step * pprfNum k * 16⟩) ++
  ((List.range (batchNum (ssStep k step) n)).map fun t => .recv ⟨"SS-U-LAST", t, pprfNum k * 16⟩) ++
  if mal then seedSend ++ [.recv ⟨"SS-CHECK", 0, (128 + 1) * 8⟩] else []

/-- softspoken_ote.cc L874-986, L989-1108: both `Recv`s of an initialised OT receiver. -/
def ssRecv (k step : ℕ) (mal : Bool) (n : ℕ) : List Act :=
  ((List.range (superNum (ssStep k step) n)).map fun t => .send ⟨"SS-U", t, pprfNum k * ssStep k step * 16⟩) ++
  ((List.range (batchNum (ssStep k step) n)).map fun t => .send ⟨"SS-U-LAST", t, pprfNum k * 16⟩) ++
  if mal then seedRecv ++ [.send ⟨"SS-CHECK", 0, (128 + 1) * 8⟩] else []

/-! ### Gilboa VOLE -/

/-- base_vole.h L110-122 `GilboaVoleSend` for `n` elements of `bits` bits.  `SoftspokenOtExtSender(2, mal)`: the flag is the
second constructor argument, the step (softspoken_ote.h L95-96); `mal` of the sender keeps its default, false. -/
def gilboaSend (mal : Bool) (bits n : ℕ) : List Act := ssSetupSend 2 false ++ ssSend 2 mal.toNat false (n * bits)

/-- base_vole.h L124-137 `GilboaVoleRecv`. -/
def gilboaRecv (mal : Bool) (bits n : ℕ) : List Act := ssSetupRecv 2 false ++ ssRecv 2 mal.toNat false (n * bits)

/-! ### Ferret -/

/-- ferret_ote_rn.h L43-100 `MpCotRNSend`. -/
def mpcotSend (range spcot : ℕ) (mal : Bool) : List Act :=
  ((List.range (divCeil range spcot - 1)).flatMap fun i => gywzFixedSend i spcot) ++
  (if range - (divCeil range spcot - 1) * spcot = 1 then []
    else gywzFixedSend (divCeil range spcot - 1) (range - (divCeil range spcot - 1) * spcot)) ++
  if mal then seedSend ++ [.recv ⟨"FERRET-CHOICES", 0, 16⟩, .send ⟨"FERRET-HASH", 0, 32⟩] else []

/-- ferret_ote_rn.h L102-171 `MpCotRNRecv`. -/
def mpcotRecv (range spcot : ℕ) (mal : Bool) : List Act :=
  ((List.range (divCeil range spcot - 1)).flatMap fun i => gywzFixedRecv i spcot) ++
  (if range - (divCeil range spcot - 1) * spcot = 1 then []
    else gywzFixedRecv (divCeil range spcot - 1) (range - (divCeil range spcot - 1) * spcot)) ++
  if mal then seedRecv ++ [.send ⟨"FERRET-CHOICES", 0, 16⟩, .recv ⟨"FERRET-HASH", 0, 32⟩] else []

/-- ferret_ote.cc L102-137 and the loops of its three copies for the sender: the multi-point COTs of the batches from `i` on;
`n`, `t` of the LPN parameters, `bs` the batch size. -/
def ferretSendLoop (n t bs num : ℕ) (mal : Bool) : ℕ → ℕ → List Act
  | 0, _ => []
  | f + 1, i =>
    mpcotSend (min n (num - i * bs)) (n / t) mal ++
      if num - i * bs > min n (num - i * bs) then ferretSendLoop n t bs num mal f (i + 1) else []

/-- ferret_ote.cc L191-228 and its copies for the receiver. -/
def ferretRecvLoop (n t bs num : ℕ) (mal : Bool) : ℕ → ℕ → List Act
  | 0, _ => []
  | f + 1, i =>
    mpcotRecv (min n (num - i * bs)) (n / t) mal ++
      if num - i * bs > min n (num - i * bs) then ferretRecvLoop n t bs num mal f (i + 1) else []

/-- ferret_ote_rn.h L32-41 `MpCotRNHelper`. -/
def mpcotHelper (t n : ℕ) (mal : Bool) : ℕ :=
  Nat.clog 2 (divCeil n t) * (t - 1) + Nat.clog 2 (n - divCeil n t * (t - 1)) + if mal then 128 else 0

/-- ferret_ote.cc L67-72, L156-160: the batch size. -/
def ferretBatch (n k t : ℕ) (mal : Bool) : ℕ := n - (k + mpcotHelper t n mal)

/-- ferret_ote.cc L52-138 `FerretOtExtSend`. -/
def ferretSend (n k t num : ℕ) (mal : Bool) : List Act :=
  seedSend ++ ferretSendLoop n t (ferretBatch n k t mal) num mal (divCeil num (ferretBatch n k t mal)) 0

/-- ferret_ote.cc L140-228 `FerretOtExtRecv`. -/
def ferretRecv (n k t num : ℕ) (mal : Bool) : List Act :=
  seedRecv ++ ferretRecvLoop n t (ferretBatch n k t mal) num mal (divCeil num (ferretBatch n k t mal)) 0

/-! ### MPFSS, MP-VOLE, silent VOLE -/

/-- mpfss.h L75-76: sizes of the single-point instances. -/
def spSize (noise size : ℕ) : ℕ := size / noise
def lastSize (noise size : ℕ) : ℕ := size - (noise - 1) * spSize noise size

/-- mpfss.h L82-83: `require_ot_num_`. -/
def mpRequire (noise size : ℕ) : ℕ :=
  Nat.clog 2 (spSize noise size) * (noise - 1) + Nat.clog 2 (lastSize noise size)

/-- mpfss.cc L34-75, L121-175 `MpfssSend` with elements of `w` bytes (16 or 8). -/
def mpfssSend (w noise size : ℕ) : List Act :=
  ((List.range noise).flatMap fun i => gywzSend i (if i = noise - 1 then lastSize noise size else spSize noise size)) ++
  [.send ⟨"MPVOLE", 0, noise * w⟩]

/-- mpfss.cc L77-119, L177-230 `MpfssRecv`. -/
def mpfssRecv (w noise size : ℕ) : List Act :=
  ((List.range noise).flatMap fun i => gywzRecv i (if i = noise - 1 then lastSize noise size else spSize noise size)) ++
  [.recv ⟨"MPVOLE", 0, noise * w⟩]

/-- mpfss.cc L466-473 (sender), L517-521 (receiver): OT messages of super batch `s` of `sn`. -/
def superMsgs (noise size sn s : ℕ) : ℕ :=
  if s = sn - 1 then (min 16 (noise - s * 16) - 1) * Nat.clog 2 (spSize noise size) + Nat.clog 2 (lastSize noise size)
  else 16 * Nat.clog 2 (spSize noise size)

/-- mpfss.cc L232-305 (`w = 16`: one message for all), L396-485 (`w = 8`: one per super batch): `MpfssSend_fixed_index`. -/
def mpfssFixedSend (w noise size : ℕ) : List Act :=
  (if w = 16 then [.send ⟨"GYWZ-ALL", 0, 16 * mpRequire noise size⟩]
    else (List.range (divCeil noise 16)).map fun s => .send ⟨"GYWZ-ALL", s, 16 * superMsgs noise size (divCeil noise 16) s⟩) ++
  [.send ⟨"MPVOLE", 0, noise * w⟩]

/-- mpfss.cc L307-394 (`w = 16`), L487-590 (`w = 8`): `MpfssRecv_fixed_index`. -/
def mpfssFixedRecv (w noise size : ℕ) : List Act :=
  (if w = 16 then [.recv ⟨"GYWZ-ALL", 0, mpRequire noise size * 16⟩]
    else (List.range (divCeil noise 16)).map fun s => .recv ⟨"GYWZ-ALL", s, superMsgs noise size (divCeil noise 16) s * 16⟩) ++
  [.recv ⟨"MPVOLE", 0, noise * w⟩]

/-- mp_vole.h L91-121 `MpVoleSender::Send`; with the consistency check the VOLE sender receives the seed. -/
def mpVoleSend (w noise size : ℕ) (mal fixed : Bool) : List Act :=
  (if fixed then mpfssFixedSend w noise size else mpfssSend w noise size) ++
  if mal then seedRecv ++ [.recv ⟨"MPVOLE-MAL", 0, w⟩, .send ⟨"MPVOLE-HASH", 0, 32⟩] else []

/-- mp_vole.h L164-212 `MpVoleReceiver::Recv`. -/
def mpVoleRecv (w noise size : ℕ) (mal fixed : Bool) : List Act :=
  (if fixed then mpfssFixedRecv w noise size else mpfssRecv w noise size) ++
  if mal then seedSend ++ [.send ⟨"MPVOLE-MAL", 0, w⟩, .recv ⟨"MPVOLE-HASH", 0, 32⟩] else []

/-- mpfss.h L70: `base_vole_num_`. -/
def baseVoleNum (noise : ℕ) (mal : Bool) : ℕ := if mal then noise + 1 else noise

/-- silent_vole.cc L79-87: `mp_vole_size` for `n` VOLEs; `gap` is that of the code. -/
def voleSize (noise gap n : ℕ) : ℕ := max (divCeil (n * 2) noise) 2 * noise + gap

/-- silent_vole.h L86-98, silent_vole.cc L203-237 `SilentVoleSender::SendImpl`: elements `a` of `tb` bytes, `b`, `c` of `w` bytes.
`ss_sender_ = SoftspokenOtExtSender(2, is_mal_)` (silent_vole.h L89): again the flag lands on the step. -/
def silentSend (x86 inited mal : Bool) (tb w noise gap n : ℕ) : List Act :=
  (if inited then [] else ssInitSend x86 2 false) ++
  ssSend 2 mal.toNat false (baseVoleNum noise mal * tb * 8 + mpRequire noise (voleSize noise gap n)) ++
  mpVoleSend w noise (voleSize noise gap n) mal true

/-- silent_vole.h L140-151, silent_vole.cc L240-290 `SilentVoleReceiver::RecvImpl`: as many OTs as choice bits, those of the
punctured indexes followed by those of the base VOLE. -/
def silentRecv (x86 inited mal : Bool) (tb w noise gap n : ℕ) : List Act :=
  (if inited then [] else ssInitRecv x86 2 false) ++
  ssRecv 2 mal.toNat false (mpRequire noise (voleSize noise gap n) + baseVoleNum noise mal * tb * 8) ++
  mpVoleRecv w noise (voleSize noise gap n) mal true

/-! ### OT kernel: chosen messages from random OTs -/

/-- ot_kernel.cc L75-112 `naive_rot2ot` of the sender; `kBatchSize` is 128. -/
def rot2otSend (n : ℕ) : List Act :=
  .recv ⟨"MASKED", 0, divCeil n 128 * 16⟩ ::
    (List.range (divCeil n 128)).map fun i => .send ⟨"PAIRS", i, 16 * min 128 (n - i * 128) * 2⟩

/-- ot_kernel.cc L114-146 `naive_rot2ot` of the receiver. -/
def rot2otRecv (n : ℕ) : List Act :=
  .send ⟨"MASKED", 0, divCeil n 128 * 16⟩ ::
    (List.range (divCeil n 128)).map fun i => .recv ⟨"PAIRS", i, min 128 (n - i * 128) * 2 * 16⟩

/-! ### Sessions -/

/-- One call of a two-party protocol, with the parameters on which both parties agree. -/
inductive Call where
  | baseOt (x86 : Bool) (n : ℕ)
  | iknp (n : ℕ)
  | kos (n : ℕ)
  | kkrt (n : ℕ)
  | kkrtObj (counts : List ℕ)
  | sgrr (n : ℕ) (mal : Bool)
  | sgrrFixed (n : ℕ) (mal : Bool)
  | gywz (n : ℕ)
  | gywzFixed (n : ℕ)
  | ssInit (x86 : Bool) (k : ℕ) (mal : Bool)
  | ss (k step : ℕ) (mal : Bool) (n : ℕ)
  | gilboa (mal : Bool) (bits n : ℕ)
  | mpcot (range spcot : ℕ) (mal : Bool)
  | ferret (n k t num : ℕ) (mal : Bool)
  | mpVole (w noise size : ℕ) (mal fixed : Bool)
  | silent (x86 inited mal : Bool) (tb w noise gap n : ℕ)
  | rot2ot (n : ℕ)

/-- The function the sender of the protocol runs. -/
def Call.sender : Call → List Act
  | .baseOt x n => baseSend x n
  | .iknp n => iknpSend n
  | .kos n => kosSend n
  | .kkrt n => kkrtSend n
  | .kkrtObj cs => kkrtObjSend cs
  | .sgrr n m => sgrrSend n m
  | .sgrrFixed n m => sgrrFixedSend n m
  | .gywz n => gywzSend 0 n
  | .gywzFixed n => gywzFixedSend 0 n
  | .ssInit x k m => ssInitSend x k m
  | .ss k st m n => ssSend k st m n
  | .gilboa m b n => gilboaSend m b n
  | .mpcot r s m => mpcotSend r s m
  | .ferret n k t num m => ferretSend n k t num m
  | .mpVole w no sz m f => mpVoleSend w no sz m f
  | .silent x i m tb w no g n => silentSend x i m tb w no g n
  | .rot2ot n => rot2otSend n

/-- The function the receiver of the protocol runs. -/
def Call.receiver : Call → List Act
  | .baseOt x n => baseRecv x n
  | .iknp n => iknpRecv n
  | .kos n => kosRecv n
  | .kkrt n => kkrtRecv n
  | .kkrtObj cs => kkrtObjRecv cs
  | .sgrr n m => sgrrRecv n m
  | .sgrrFixed n m => sgrrFixedRecv n m
  | .gywz n => gywzRecv 0 n
  | .gywzFixed n => gywzFixedRecv 0 n
  | .ssInit x k m => ssInitRecv x k m
  | .ss k st m n => ssRecv k st m n
  | .gilboa m b n => gilboaRecv m b n
  | .mpcot r s m => mpcotRecv r s m
  | .ferret n k t num m => ferretRecv n k t num m
  | .mpVole w no sz m f => mpVoleRecv w no sz m f
  | .silent x i m tb w no g n => silentRecv x i m tb w no g n
  | .rot2ot n => rot2otRecv n

/-- A session of party `P`: the calls one after another; in a call marked `true` party `P` is the sender. -/
def sessionP (cs : List (Bool × Call)) : List Act := cs.flatMap fun c => if c.1 then c.2.sender else c.2.receiver

/-- The same session as party `Q` runs it, in the other role each time. -/
def sessionQ (cs : List (Bool × Call)) : List Act := cs.flatMap fun c => if c.1 then c.2.receiver else c.2.sender

end Yacl.Scripts
