import Verif.Kernel.OtStore

/-! Making OT stores and using the stores of both parties alike: yacl/kernel/type/ot_store_utils.h, yacl/kernel/type/ot_store_utils.cc, yacl/kernel/type/ot_store.cc. Property C119. -/
namespace Yacl.OtMock
open OtStore

/-! ### Model -/

/-- Blocks. -/
abbrev B := BitVec 128

/-- ot_store.h L131 `OtSendStore` with all slices made of it. `fam.m` is 1 in compact and 2 in normal mode. -/
structure Send where
  fam : Fam B
  delta : B

/-- ot_store.h L35 `OtRecvStore` with all slices made of it; `bits` is `none` in compact mode. -/
structure Recv where
  fam : Fam B
  bits : Option (List Bool)

/-- ot_store.cc L31-37, L199-205: the constructors from buffers, called with counters that span the buffer; allocation fails beyond 2^59 blocks. -/
def mkFam (m : Nat) (buf : List B) (size : Nat) : Option (Fam B) :=
  if buf.length ≥ 576460752303423488 then none
  else
    let c : Ctrs := ⟨0, size, 0, size⟩
    if c.consistent buf.length then some ⟨m, buf, [c]⟩ else none

/-- ot_store_utils.cc L86-116 `MakeOtSendStore`. -/
def makeOtSendStore (blocks : List (B × B)) : Option Send :=
  (mkFam 2 (blocks.flatMap (fun p => [p.1, p.2])) (blocks.length * 2)).map (fun f => ⟨f, 0⟩)

/-- ot_store_utils.cc L118-177 `MakeCompactOtSendStore`. -/
def makeCompactOtSendStore (blocks : List B) (delta : B) : Option Send :=
  (mkFam 1 blocks blocks.length).map (fun f => ⟨f, delta⟩)

/-- ot_store_utils.cc L178-198 `MakeOtRecvStore`; ot_store.cc L190-192: in normal mode the sizes of both buffers must agree. -/
def makeOtRecvStore (choices : List Bool) (blocks : List B) : Option Recv :=
  if choices.length = blocks.length then (mkFam 1 blocks choices.length).map (fun f => ⟨f, some choices⟩) else none

/-- ot_store_utils.cc L200-256 `MakeCompactOtRecvStore`. -/
def makeCompactOtRecvStore (blocks : List B) : Option Recv :=
  (mkFam 1 blocks blocks.length).map (fun f => ⟨f, none⟩)

/-- Both stores, or nothing when a constructor throws. -/
def both (s : Option Send) (r : Option Recv) : Option (Send × Recv) :=
  match s, r with
  | some s, some r => some (s, r)
  | _, _ => none

/-- ot_store_utils.cc L22-40 `MockRots`; `gen` is the output of the PRG. -/
def mockRots (gen : Nat → B) (num : Nat) (choices : List Bool) : Option (Send × Recv) :=
  if choices.length = num then
    let send := (List.range num).map (fun i => (gen (2 * i), gen (2 * i + 1)))
    let recv := (List.range num).map (fun i => if choices.getD i false then gen (2 * i + 1) else gen (2 * i))
    both (makeOtSendStore send) (makeOtRecvStore choices recv)
  else none

/-- ot_store_utils.cc L42-66 `MockCots`. -/
def mockCots (gen : Nat → B) (num : Nat) (delta : B) (choices : List Bool) : Option (Send × Recv) :=
  if choices.length = num then
    let send := (List.range num).map gen
    let recv := (List.range num).map (fun i => if !choices.getD i false then gen i else gen i ^^^ delta)
    both (makeCompactOtSendStore send delta) (makeOtRecvStore choices recv)
  else none

/-- ot_store_utils.cc L68-84 `MockCompactOts`; `rnd` is the random delta before its last bit is set. -/
def mockCompactOts (gen : Nat → B) (rnd : B) (num : Nat) : Option (Send × Recv) :=
  let delta := rnd ||| 1
  let send := (List.range num).map (fun i => gen i ^^^ ((gen i &&& 1) * delta))
  let recv := (List.range num).map gen
  both (makeCompactOtSendStore send delta) (makeCompactOtRecvStore recv)

/-- ot_store.cc L305-314 `OtSendStore::GetBlock` on handle `h`. -/
def Send.getBlock (s : Send) (h otIdx msgIdx : Nat) : Out B :=
  match s.fam.hs[h]? with
  | none => .throw
  | some c => if s.delta = 0 then sendGetRot s.fam.buf c otIdx msgIdx else sendGetCot s.fam.buf c s.fam.m s.delta otIdx msgIdx

/-- ot_store.cc L104-107 `OtRecvStore::GetBlock`. -/
def Recv.getBlock (r : Recv) (h i : Nat) : Out B :=
  match r.fam.hs[h]? with
  | none => .throw
  | some c => match c.bufIdx i with
    | none => .throw
    | some j => rd r.fam.buf j

/-- ot_store.cc L135-144 `OtRecvStore::GetChoice`. -/
def Recv.getChoice (r : Recv) (h i : Nat) : Out Bool :=
  match r.fam.hs[h]? with
  | none => .throw
  | some c => match c.bufIdx i with
    | none => .throw
    | some j => match r.bits with
      | some bits => rd bits j
      | none => match rd r.fam.buf j with
        | .ok v => .ok (v.getLsbD 0)
        | .throw => .throw
        | .ub => .ub

/-- ot_store.cc L285-291 `OtSendStore::Size`. -/
def Send.size (s : Send) (h : Nat) : Option Nat := (s.fam.hs[h]?).map (fun c => if s.fam.m = 1 then c.useSize else c.useSize / 2)

/-- ot_store.h L61 `OtRecvStore::Size`. -/
def Recv.size (r : Recv) (h : Nat) : Option Nat := (r.fam.hs[h]?).map (·.useSize)

/-- A slicing call, which both parties make on the store or slice number `h`. -/
inductive Call
  | next (h num : Nat)
  | slice (h b e : Nat)
  | reset (h : Nat)
  deriving DecidableEq

def Call.op : Call → Op B
  | .next h num => .next h num
  | .slice h b e => .slice h b e
  | .reset h => .resetSlice h

/-- A list of calls: the stores afterwards. -/
def Send.run (s : Send) (cs : List Call) : Send := { s with fam := s.fam.run (cs.map Call.op) }

def Recv.run (r : Recv) (cs : List Call) : Recv := { r with fam := r.fam.run (cs.map Call.op) }

/-! ### Specification -/

/-- Numbers of OTs as a program can mean them. -/
def Call.Sane : Call → Prop
  | .next _ num => num < 4611686018427387904
  | .slice _ b e => b < 4611686018427387904 ∧ e < 4611686018427387904
  | .reset _ => True

/-- How a call ends. -/
def ended {β : Type} : Out (Ret β) → Nat
  | .ok _ => 0
  | .throw => 1
  | .ub => 2

/-- Store or slice `h` of both parties holds the same number of OTs, and in each of them the receiver has the sender's message of the receiver's choice. -/
def Agree (s : Send) (r : Recv) (h : Nat) : Prop :=
  s.size h = r.size h ∧ ∀ n, r.size h = some n → ∀ i < n, ∃ c v, r.getChoice h i = .ok c ∧ r.getBlock h i = .ok v ∧ s.getBlock h i c.toNat = .ok v

/-! ### Lemmas -/

def scale (m : Nat) (c : Ctrs) : Ctrs := ⟨m * c.useCtr, m * c.useSize, m * c.bufCtr, m * c.bufSize⟩

structure Paired (m : Nat) (s r : Fam B) : Prop where
  hm : m = 1 ∨ m = 2
  sm : s.m = m
  rm : r.m = 1
  len : s.buf.length = m * r.buf.length
  hs : s.hs = r.hs.map (scale m)
  is : Inv s
  ir : Inv r

theorem Call.sane_u64 (c : Call) (h : c.Sane) : c.op.u64 := by
  cases c <;> simp only [Call.Sane, Call.op, Op.u64] at * <;> omega

theorem step_buf (f : Fam B) (c : Call) : (f.step c.op).1.buf = f.buf := by
  cases c <;> simp only [Call.op, Fam.step] <;> split <;> (try split) <;> rfl

theorem paired_step {m : Nat} {s r : Fam B} (p : Paired m s r) (c : Call) (hc : c.Sane) :
    Paired m (s.step c.op).1 (r.step c.op).1 ∧ ended (s.step c.op).2 = ended (r.step c.op).2 ∧ ended (r.step c.op).2 ≠ 2 := by
  have hu := c.sane_u64 hc
  have i1 := step_inv p.is hu
  have i2 := step_inv p.ir hu
  have hl1 := step_len s c.op
  have hl2 := step_len r c.op
  obtain ⟨hm, sm, rm, len, hs, is, ir⟩ := p
  have mk : (s.step c.op).1.hs = (r.step c.op).1.hs.map (scale m) → Paired m (s.step c.op).1 (r.step c.op).1 := fun h =>
    ⟨hm, by rw [hl1.2, sm], by rw [hl2.2, rm], by rw [hl1.1, hl2.1, len], h, i1, i2⟩
  suffices H : (s.step c.op).1.hs = (r.step c.op).1.hs.map (scale m) ∧ ended (s.step c.op).2 = ended (r.step c.op).2 ∧ ended (r.step c.op).2 ≠ 2 from ⟨mk H.1, H.2⟩
  clear mk i1 i2 hl1 hl2 hu
  have hget : ∀ h, s.hs[h]? = (r.hs[h]?).map (scale m) := fun h => by rw [hs, List.getElem?_map]
  cases c with
  | next h num =>
    simp only [Call.op, Fam.step, hget h]
    cases hr : r.hs[h]? with
    | none => exact ⟨hs, rfl, by simp [ended]⟩
    | some cr =>
      simp only [Option.map_some]
      have gr := ir.good cr (List.mem_of_getElem? hr)
      have gs := is.good (scale m cr) (List.mem_of_getElem? (by rw [hget h, hr]; rfl))
      rw [nextSlice_spec is.m1 is.small gs hc, nextSlice_spec ir.m1 ir.small gr hc, sm, rm]
      have e : (0 < num ∧ (scale m cr).bufCtr + num * m ≤ (scale m cr).bufSize) ↔ (0 < num ∧ cr.bufCtr + num * 1 ≤ cr.bufSize) := by
        unfold scale
        rcases hm with rfl | rfl <;> simp only <;> omega
      by_cases hn : 0 < num ∧ cr.bufCtr + num * 1 ≤ cr.bufSize
      · rw [if_pos (e.mpr hn), if_pos hn]
        simp only
        refine ⟨?_, rfl, by simp [ended]⟩
        rw [List.map_append, List.map_set, hs]
        congr 1
        · congr 1
          simp only [scale, Ctrs.mk.injEq, and_true, true_and]
          rcases hm with rfl | rfl <;> omega
        · simp only [scale, List.map_cons, List.map_nil, List.cons.injEq, Ctrs.mk.injEq, and_true, true_and]
          rcases hm with rfl | rfl <;> omega
      · rw [if_neg (fun h => hn (e.mp h)), if_neg hn]
        exact ⟨hs, rfl, by simp [ended]⟩
  | slice h b e =>
    obtain ⟨hb, he⟩ := hc
    simp only [Call.op, Fam.step, hget h]
    cases hr : r.hs[h]? with
    | none => exact ⟨hs, rfl, by simp [ended]⟩
    | some cr =>
      simp only [Option.map_some]
      rw [mkSlice_spec is.m1 is.small (by omega) (by omega), mkSlice_spec ir.m1 ir.small (by omega) (by omega), sm, rm, len]
      have eq : (b < e ∧ e * m ≤ m * r.buf.length) ↔ (b < e ∧ e * 1 ≤ r.buf.length) := by
        rcases hm with rfl | rfl <;> omega
      by_cases hn : b < e ∧ e * 1 ≤ r.buf.length
      · rw [if_pos (eq.mpr hn), if_pos hn]
        simp only
        refine ⟨?_, rfl, by simp [ended]⟩
        rw [List.map_append, hs]
        congr 1
        simp only [scale, List.map_cons, List.map_nil, List.cons.injEq, Ctrs.mk.injEq, and_true, true_and]
        rcases hm with rfl | rfl <;> omega
      · rw [if_neg (fun h => hn (eq.mp h)), if_neg hn]
        exact ⟨hs, rfl, by simp [ended]⟩
  | reset h =>
    simp only [Call.op, Fam.step, hget h]
    cases hr : r.hs[h]? with
    | none => exact ⟨hs, rfl, by simp [ended]⟩
    | some cr =>
      simp only [Option.map_some]
      refine ⟨?_, trivial, by simp [ended]⟩
      rw [List.map_set, hs]
      congr 1

theorem paired_run {m : Nat} (cs : List Call) : ∀ {s r : Fam B}, Paired m s r → (∀ c ∈ cs, c.Sane) →
    Paired m (s.run (cs.map Call.op)) (r.run (cs.map Call.op)) ∧ (s.run (cs.map Call.op)).buf = s.buf ∧ (r.run (cs.map Call.op)).buf = r.buf := by
  induction cs with
  | nil => exact fun p _ => ⟨p, rfl, rfl⟩
  | cons c cs ih =>
    intro s r p h
    obtain ⟨q1, q2, q3⟩ := ih (paired_step p c (h c (by simp))).1 (fun d hd => h d (by simp [hd]))
    rw [step_buf] at q2 q3
    exact ⟨q1, q2, q3⟩

/-- The message of OT `j` of the whole store. -/
def msgOf (s : Send) (j : Nat) (c : Bool) : B :=
  if s.delta = 0 then s.fam.buf.getD (2 * j + c.toNat) 0 else if c then s.fam.buf.getD (s.fam.m * j) 0 ^^^ s.delta else s.fam.buf.getD (s.fam.m * j) 0

theorem rd_ok {α : Type} (buf : List α) (j : Nat) (d : α) (h : j < buf.length) : rd buf j = .ok (buf.getD j d) := by
  unfold rd
  rw [List.getElem?_eq_getElem h, List.getD_eq_getElem?_getD, List.getElem?_eq_getElem h]
  rfl

/-- The choice of OT `j` of the whole store. -/
def choiceOf (r : Recv) (j : Nat) : Bool :=
  match r.bits with
  | some bits => bits.getD j false
  | none => (r.fam.buf.getD j 0).getLsbD 0

theorem recv_get {m : Nat} {s : Fam B} {r : Recv} (p : Paired m s r.fam) (hb : ∀ b, r.bits = some b → b.length = r.fam.buf.length) {h : Nat} {c : Ctrs} (hc : r.fam.hs[h]? = some c) {i : Nat} (hi : i < c.useSize) :
    c.useCtr + i < r.fam.buf.length ∧ r.getChoice h i = .ok (choiceOf r (c.useCtr + i)) ∧ r.getBlock h i = .ok (r.fam.buf.getD (c.useCtr + i) 0) := by
  obtain ⟨g1, g2, g3, g4, g5, -, -, -⟩ := p.ir.good c (List.mem_of_getElem? hc)
  have hs := p.ir.small
  have hbi : c.bufIdx i = some (c.useCtr + i) := by
    unfold Ctrs.bufIdx u64
    rw [if_pos hi, Nat.mod_eq_of_lt (by omega)]
  have hl : c.useCtr + i < r.fam.buf.length := by omega
  refine ⟨hl, ?_, ?_⟩
  · unfold Recv.getChoice choiceOf
    rw [hc]
    simp only [hbi]
    cases hbit : r.bits with
    | some b =>
      simp only
      exact rd_ok _ _ _ (by rw [hb b hbit]; exact hl)
    | none =>
      simp only
      rw [rd_ok _ _ 0 hl]
  · unfold Recv.getBlock
    rw [hc]
    simp only [hbi]
    exact rd_ok _ _ _ hl

theorem send_get {m : Nat} {s : Send} {r : Fam B} (p : Paired m s.fam r) (hd : s.delta = 0 → m = 2) {h : Nat} {c : Ctrs} (hc : r.hs[h]? = some c) {i : Nat} (hi : i < c.useSize) (b : Bool) :
    s.getBlock h i b.toNat = .ok (msgOf s (c.useCtr + i) b) := by
  obtain ⟨g1, g2, g3, g4, g5, -, -, -⟩ := p.ir.good c (List.mem_of_getElem? hc)
  have hs := p.is.small
  have hl := p.len
  have hsc : s.fam.hs[h]? = some (scale m c) := by rw [p.hs, List.getElem?_map, hc]; rfl
  have hb01 : b.toNat = 0 ∨ b.toNat = 1 := by cases b <;> simp
  have hlt : m * (c.useCtr + i) + (m - 1) < s.fam.buf.length := by
    rw [hl]
    rcases p.hm with rfl | rfl <;> omega
  unfold Send.getBlock msgOf
  rw [hsc]
  simp only
  by_cases h0 : s.delta = 0
  · obtain rfl := hd h0
    rw [if_pos h0, if_pos h0]
    unfold sendGetRot
    rw [if_pos hb01]
    have e1 : u64 (2 * i) = 2 * i := Nat.mod_eq_of_lt (by omega)
    have e2 : (scale 2 c).bufIdx (2 * i) = some (2 * (c.useCtr + i)) := by
      unfold Ctrs.bufIdx scale u64
      rw [if_pos (by show 2 * i < 2 * c.useSize; omega)]
      congr 1
      show (2 * c.useCtr + 2 * i) % _ = _
      rw [← Nat.mul_add]
      exact Nat.mod_eq_of_lt (by omega)
    rw [e1, e2]
    simp only
    have e3 : u64 (2 * (c.useCtr + i) + b.toNat) = 2 * (c.useCtr + i) + b.toNat := Nat.mod_eq_of_lt (by omega)
    rw [e3]
    exact rd_ok _ _ _ (by omega)
  · rw [if_neg h0, if_neg h0]
    unfold sendGetCot
    rw [if_pos hb01, p.sm]
    have hmi : m * i < m * c.useSize := Nat.mul_lt_mul_of_pos_left hi (by rcases p.hm with rfl | rfl <;> decide)
    have hmle : m * i ≤ m * (c.useCtr + i) := Nat.mul_le_mul_left _ (by omega)
    have e1 : u64 (m * i) = m * i := Nat.mod_eq_of_lt (by omega)
    have e2 : (scale m c).bufIdx (m * i) = some (m * (c.useCtr + i)) := by
      unfold Ctrs.bufIdx scale u64
      rw [if_pos hmi]
      congr 1
      show (m * c.useCtr + m * i) % _ = _
      rw [← Nat.mul_add]
      exact Nat.mod_eq_of_lt (by omega)
    rw [e1, e2]
    simp only
    rw [rd_ok _ _ 0 (by omega)]
    cases b
    · simp
    · simp

/-- Stores whose OTs agree as a whole agree in every slice. -/
theorem agree_of {m : Nat} {s : Send} {r : Recv} (p : Paired m s.fam r.fam) (hd : s.delta = 0 → m = 2) (hb : ∀ b, r.bits = some b → b.length = r.fam.buf.length)
    (hall : ∀ j < r.fam.buf.length, r.fam.buf.getD j 0 = msgOf s j (choiceOf r j)) (cs : List Call) (hcs : ∀ c ∈ cs, c.Sane) (h : Nat) : Agree (s.run cs) (r.run cs) h := by
  obtain ⟨q1, q2, q3⟩ := paired_run cs p hcs
  have hms : (s.run cs).fam.m = s.fam.m := run_m _ _
  have hmsg : ∀ j c, msgOf (s.run cs) j c = msgOf s j c := by
    intro j c
    unfold msgOf
    rw [hms]
    show (if s.delta = 0 then (s.fam.run (cs.map Call.op)).buf.getD _ 0 else if c then (s.fam.run (cs.map Call.op)).buf.getD _ 0 ^^^ s.delta else (s.fam.run (cs.map Call.op)).buf.getD _ 0) = _
    rw [q2]
  have hch : ∀ j, choiceOf (r.run cs) j = choiceOf r j := by
    intro j
    unfold choiceOf Recv.run
    simp only
    rw [q3]
  refine ⟨?_, ?_⟩
  · unfold Send.size Recv.size
    rw [hms, p.sm]
    show ((s.fam.run (cs.map Call.op)).hs[h]?).map _ = ((r.fam.run (cs.map Call.op)).hs[h]?).map _
    rw [q1.hs, List.getElem?_map, Option.map_map]
    congr 1
    funext c
    show (if m = 1 then (scale m c).useSize else (scale m c).useSize / 2) = c.useSize
    unfold scale
    rcases p.hm with rfl | rfl
    · simp
    · simp
  · intro n hn i hi
    unfold Recv.size at hn
    cases hc : (r.run cs).fam.hs[h]? with
    | none => rw [hc] at hn; exact absurd hn (by simp)
    | some c =>
      rw [hc] at hn
      obtain rfl := Option.some.inj hn
      obtain ⟨k1, k2, k3⟩ := recv_get (r := r.run cs) q1 (fun b hb' => by
        show b.length = (r.fam.run (cs.map Call.op)).buf.length
        rw [q3]
        exact hb b hb') hc hi
      have k4 := send_get (s := s.run cs) q1 hd hc hi (choiceOf (r.run cs) (c.useCtr + i))
      refine ⟨_, _, k2, k3, ?_⟩
      rw [k4, hmsg, hch]
      congr 1
      have hj : c.useCtr + i < r.fam.buf.length := by rw [← q3]; exact k1
      rw [← hall _ hj]
      show r.fam.buf.getD _ 0 = (r.fam.run (cs.map Call.op)).buf.getD _ 0
      rw [q3]

theorem mkFam_ok (m : Nat) (hm : m = 1 ∨ m = 2) (buf : List B) (size : Nat) (h0 : 0 < size) (hl : buf.length = size) (hmd : m ∣ size) (h : size < 576460752303423488) :
    mkFam m buf size = some ⟨m, buf, [⟨0, size, 0, size⟩]⟩ ∧ Inv ⟨m, buf, [⟨0, size, 0, size⟩]⟩ := by
  constructor
  · unfold mkFam
    rw [if_neg (by omega)]
    simp only
    rw [if_pos ((consistent_iff _ _).mpr (by simp only; omega))]
  · refine ⟨hm, by show buf.length < _; omega, ?_⟩
    intro c hc
    simp only [List.mem_singleton] at hc
    subst hc
    refine ⟨?_, ?_, ?_, ?_, ?_, ?_, ?_, ?_⟩ <;> simp only <;> first | omega | exact Nat.dvd_zero _ | exact hmd

theorem mkFam_none (m : Nat) (buf : List B) (size : Nat) (h : size = 0) : mkFam m buf size = none := by
  unfold mkFam
  split
  · rfl
  · simp only
    rw [if_neg]
    rw [consistent_iff]
    simp only
    omega

theorem mkFam_none' (m : Nat) (buf : List B) (size : Nat) (h : 576460752303423488 ≤ buf.length) : mkFam m buf size = none := by
  unfold mkFam
  rw [if_pos h]

theorem flat_length (n : Nat) (f : Nat → B × B) : (((List.range n).map f).flatMap (fun p => [p.1, p.2])).length = 2 * n := by
  induction n with
  | zero => rfl
  | succ n ih =>
    rw [List.range_succ, List.map_append, List.flatMap_append, List.length_append, ih]
    simp
    omega

theorem flat_get (n : Nat) (f : Nat → B × B) (j : Nat) (hj : j < n) (c : Bool) :
    (((List.range n).map f).flatMap (fun p => [p.1, p.2])).getD (2 * j + c.toNat) 0 = if c then (f j).2 else (f j).1 := by
  induction n with
  | zero => omega
  | succ n ih =>
    have hc : c.toNat ≤ 1 := by cases c <;> simp
    rw [List.range_succ, List.map_append, List.flatMap_append, List.getD_eq_getElem?_getD]
    by_cases h : j < n
    · rw [List.getElem?_append_left (by rw [flat_length]; omega), ← List.getD_eq_getElem?_getD, ih h]
    · obtain rfl : j = n := by omega
      rw [List.getElem?_append_right (by rw [flat_length]; omega), flat_length]
      cases c <;> simp

theorem getD_range (n : Nat) (f : Nat → B) (j : Nat) (hj : j < n) : ((List.range n).map f).getD j 0 = f j := by
  rw [List.getD_eq_getElem?_getD, List.getElem?_map, List.getElem?_range hj]
  rfl

/-! ### C119 -/

/-- C119. When both parties make the same slicing calls on their stores, of whatever modes, in whatever order and also after failed calls, each call succeeds for both or throws for both, and no
call is undefined. `s` and `r` are stores for the same number of OTs, at the start (`cs = []`) or after any calls. -/
theorem C119_same_calls (m n : Nat) (hm : m = 1 ∨ m = 2) (sb rb : List B) (hsb : sb.length = m * n) (hrb : rb.length = n) (sf rf : Fam B) (hsf : mkFam m sb (m * n) = some sf) (hrf : mkFam 1 rb n = some rf)
    (cs : List Call) (hcs : ∀ c ∈ cs, c.Sane) (c : Call) (hc : c.Sane) :
    ended ((sf.run (cs.map Call.op)).step c.op).2 = ended ((rf.run (cs.map Call.op)).step c.op).2 ∧ ended ((rf.run (cs.map Call.op)).step c.op).2 ≠ 2 := by
  by_cases h0 : n = 0
  · rw [mkFam_none 1 rb n h0] at hrf
    exact absurd hrf (by simp)
  by_cases hbig : 576460752303423488 ≤ m * n
  · rw [mkFam_none' m sb _ (by omega)] at hsf
    exact absurd hsf (by simp)
  have hmn : n ≤ m * n := by rcases hm with rfl | rfl <;> omega
  obtain ⟨e1, i1⟩ := mkFam_ok m hm sb (m * n) (by omega) hsb (Nat.dvd_mul_right _ _) (by omega)
  obtain ⟨e2, i2⟩ := mkFam_ok 1 (Or.inl rfl) rb n (by omega) hrb (Nat.one_dvd _) (by omega)
  rw [e1] at hsf
  rw [e2] at hrf
  obtain rfl := Option.some.inj hsf
  obtain rfl := Option.some.inj hrf
  have p : Paired m (⟨m, sb, [⟨0, m * n, 0, m * n⟩]⟩ : Fam B) ⟨1, rb, [⟨0, n, 0, n⟩]⟩ := ⟨hm, rfl, rfl, by simp only; rw [hsb, hrb], by simp [scale], i1, i2⟩
  exact (paired_step (paired_run cs p hcs).1 c hc).2

/-- C119. Random OTs: for any choices the receiver holds the chosen message in every OT of every store and slice that both parties make by the same calls. The two messages of OT `i` are the
sender's own. No OTs, or a wrong number of choices, throw. -/
theorem C119_rots (gen : Nat → B) (num : Nat) (choices : List Bool) :
    (choices.length = num → 0 < num → 2 * num < 576460752303423488 → ∃ s r, mockRots gen num choices = some (s, r) ∧ r.size 0 = some num ∧
      (∀ i < num, r.getChoice 0 i = .ok (choices.getD i false) ∧ s.getBlock 0 i 0 = .ok (gen (2 * i)) ∧ s.getBlock 0 i 1 = .ok (gen (2 * i + 1))) ∧
      ∀ cs, (∀ c ∈ cs, Call.Sane c) → ∀ h, Agree (s.run cs) (r.run cs) h) ∧
    (choices.length ≠ num ∨ num = 0 → mockRots gen num choices = none) := by
  constructor
  · intro hl h0 hbig
    unfold mockRots
    rw [if_pos hl]
    simp only
    generalize hsend : (List.range num).map (fun i => (gen (2 * i), gen (2 * i + 1))) = send
    generalize hrecv : (List.range num).map (fun i => if choices.getD i false then gen (2 * i + 1) else gen (2 * i)) = recv
    have sl : send.length = num := by rw [← hsend]; simp
    have rl : recv.length = num := by rw [← hrecv]; simp
    have fl : (send.flatMap (fun p => [p.1, p.2])).length = num * 2 := by rw [← hsend, flat_length, Nat.mul_comm]
    obtain ⟨e1, i1⟩ := mkFam_ok 2 (Or.inr rfl) (send.flatMap (fun p => [p.1, p.2])) (num * 2) (by omega) fl (Nat.dvd_mul_left _ _) (by omega)
    obtain ⟨e2, i2⟩ := mkFam_ok 1 (Or.inl rfl) recv num (by omega) rl (Nat.one_dvd _) (by omega)
    generalize hF : (⟨2, send.flatMap (fun p => [p.1, p.2]), [⟨0, num * 2, 0, num * 2⟩]⟩ : Fam B) = F at *
    generalize hG : (⟨1, recv, [⟨0, num, 0, num⟩]⟩ : Fam B) = G at *
    have p : Paired 2 F G := ⟨Or.inr rfl, by rw [← hF], by rw [← hG], by rw [← hF, ← hG]; simp only; omega, by rw [← hF, ← hG]; simp [scale, Nat.mul_comm], i1, i2⟩
    have hs0 : G.hs[0]? = some ⟨0, num, 0, num⟩ := by rw [← hG]; rfl
    have hmsg : ∀ j < num, ∀ c, msgOf ⟨F, 0⟩ j c = if c then gen (2 * j + 1) else gen (2 * j) := by
      intro j hj c
      unfold msgOf
      simp only
      rw [if_true, ← hF, ← hsend]
      exact flat_get num (fun i => (gen (2 * i), gen (2 * i + 1))) j hj c
    have hch : ∀ j, choiceOf ⟨G, some choices⟩ j = choices.getD j false := fun j => rfl
    refine ⟨⟨F, 0⟩, ⟨G, some choices⟩, ?_, ?_, ?_, ?_⟩
    · unfold both makeOtSendStore makeOtRecvStore
      rw [sl, e1, if_pos (by omega), hl, e2]
      rfl
    · unfold Recv.size
      simp only [hs0, Option.map_some]
    · intro i hi
      have hb : ∀ b, (some choices : Option (List Bool)) = some b → b.length = G.buf.length := by
        intro b hb
        obtain rfl := Option.some.inj hb
        rw [← hG]
        simp only
        omega
      have k2 := (recv_get (r := ⟨G, some choices⟩) p hb hs0 (i := i) hi).2.1
      have k3 := send_get (s := ⟨F, 0⟩) p (fun _ => rfl) hs0 (i := i) hi false
      have k4 := send_get (s := ⟨F, 0⟩) p (fun _ => rfl) hs0 (i := i) hi true
      simp only [Nat.zero_add] at k2 k3 k4
      rw [hmsg i hi] at k3 k4
      refine ⟨k2, k3, k4⟩
    · intro cs hcs h
      refine agree_of (m := 2) p (fun _ => rfl) ?_ ?_ cs hcs h
      · intro b hb
        obtain rfl := Option.some.inj hb
        show choices.length = G.buf.length
        rw [← hG]
        simp only
        omega
      · intro j hj
        have hj' : j < num := by
          rw [← rl]
          rw [← hG] at hj
          exact hj
        rw [hmsg j hj', hch]
        show G.buf.getD j 0 = _
        rw [← hG, ← hrecv]
        simp only
        rw [getD_range _ _ _ hj']
  · rintro (h | h)
    · unfold mockRots
      rw [if_neg h]
    · subst h
      unfold mockRots both makeOtSendStore
      split
      · simp only [List.range_zero, List.map_nil, List.length_nil]
        rw [mkFam_none _ _ _ (by omega)]
        rfl
      · rfl

/-- C119. Correlated OTs with a nonzero delta: as above, and the sender's two messages differ by delta. -/
theorem C119_cots (gen : Nat → B) (num : Nat) (delta : B) (hd : delta ≠ 0) (choices : List Bool) :
    (choices.length = num → 0 < num → num < 576460752303423488 → ∃ s r, mockCots gen num delta choices = some (s, r) ∧ r.size 0 = some num ∧
      (∀ i < num, r.getChoice 0 i = .ok (choices.getD i false) ∧ s.getBlock 0 i 0 = .ok (gen i) ∧ s.getBlock 0 i 1 = .ok (gen i ^^^ delta)) ∧
      ∀ cs, (∀ c ∈ cs, Call.Sane c) → ∀ h, Agree (s.run cs) (r.run cs) h) ∧
    (choices.length ≠ num ∨ num = 0 → mockCots gen num delta choices = none) := by
  constructor
  · intro hl h0 hbig
    unfold mockCots
    rw [if_pos hl]
    simp only
    generalize hsend : (List.range num).map gen = send
    generalize hrecv : (List.range num).map (fun i => if !choices.getD i false then gen i else gen i ^^^ delta) = recv
    have sl : send.length = num := by rw [← hsend]; simp
    have rl : recv.length = num := by rw [← hrecv]; simp
    obtain ⟨e1, i1⟩ := mkFam_ok 1 (Or.inl rfl) send num (by omega) sl (Nat.one_dvd _) (by omega)
    obtain ⟨e2, i2⟩ := mkFam_ok 1 (Or.inl rfl) recv num (by omega) rl (Nat.one_dvd _) (by omega)
    generalize hF : (⟨1, send, [⟨0, num, 0, num⟩]⟩ : Fam B) = F at *
    generalize hG : (⟨1, recv, [⟨0, num, 0, num⟩]⟩ : Fam B) = G at *
    have p : Paired 1 F G := ⟨Or.inl rfl, by rw [← hF], by rw [← hG], by rw [← hF, ← hG]; simp only; omega, by rw [← hF, ← hG]; simp [scale], i1, i2⟩
    have hs0 : G.hs[0]? = some ⟨0, num, 0, num⟩ := by rw [← hG]; rfl
    have hmsg : ∀ j < num, ∀ c, msgOf ⟨F, delta⟩ j c = if c then gen j ^^^ delta else gen j := by
      intro j hj c
      unfold msgOf
      simp only
      rw [if_neg hd, ← hF, ← hsend]
      simp only [Nat.one_mul]
      rw [getD_range num gen j hj]
    have hch : ∀ j, choiceOf ⟨G, some choices⟩ j = choices.getD j false := fun j => rfl
    refine ⟨⟨F, delta⟩, ⟨G, some choices⟩, ?_, ?_, ?_, ?_⟩
    · unfold both makeCompactOtSendStore makeOtRecvStore
      rw [sl, e1, if_pos (by omega), hl, e2]
      rfl
    · unfold Recv.size
      simp only [hs0, Option.map_some]
    · intro i hi
      have hb : ∀ b, (some choices : Option (List Bool)) = some b → b.length = G.buf.length := by
        intro b hb
        obtain rfl := Option.some.inj hb
        rw [← hG]
        simp only
        omega
      have k2 := (recv_get (r := ⟨G, some choices⟩) p hb hs0 (i := i) hi).2.1
      have k3 := send_get (s := ⟨F, delta⟩) p (fun h => absurd h hd) hs0 (i := i) hi false
      have k4 := send_get (s := ⟨F, delta⟩) p (fun h => absurd h hd) hs0 (i := i) hi true
      simp only [Nat.zero_add] at k2 k3 k4
      rw [hmsg i hi] at k3 k4
      refine ⟨k2, k3, k4⟩
    · intro cs hcs h
      refine agree_of (m := 1) p (fun h => absurd h hd) ?_ ?_ cs hcs h
      · intro b hb
        obtain rfl := Option.some.inj hb
        show choices.length = G.buf.length
        rw [← hG]
        simp only
        omega
      · intro j hj
        have hj' : j < num := by
          rw [← rl]
          rw [← hG] at hj
          exact hj
        rw [hmsg j hj', hch]
        show G.buf.getD j 0 = _
        rw [← hG, ← hrecv]
        simp only
        rw [getD_range _ _ _ hj']
        cases choices.getD j false <;> simp
  · rintro (h | h)
    · unfold mockCots
      rw [if_neg h]
    · subst h
      unfold mockCots both makeCompactOtSendStore
      split
      · simp only [List.range_zero, List.map_nil, List.length_nil]
        rw [mkFam_none _ _ _ rfl]
        rfl
      · rfl

theorem lsb_mul (x delta : B) : (x &&& 1) * delta = if x.getLsbD 0 then delta else 0 := by
  by_cases h : x.getLsbD 0
  · rw [if_pos h]
    have : x &&& 1 = 1#128 := by
      apply BitVec.eq_of_getLsbD_eq
      intro i hi
      rw [BitVec.getLsbD_and]
      cases i with
      | zero => rw [h]; rfl
      | succ i => simp [BitVec.getLsbD_one]
    rw [this, BitVec.one_mul]
  · rw [if_neg h]
    have : x &&& 1 = 0#128 := by
      apply BitVec.eq_of_getLsbD_eq
      intro i hi
      rw [BitVec.getLsbD_and]
      cases i with
      | zero => simp only [Bool.not_eq_true] at h; rw [h]; rfl
      | succ i => simp [BitVec.getLsbD_one]
    rw [this, BitVec.zero_mul]
    rfl

/-- C119. Compact OTs: as above, the receiver's choices are the last bits of its blocks, and the sender's first messages end in 0, its second messages in 1. -/
theorem C119_compact (gen : Nat → B) (rnd : B) (num : Nat) :
    (0 < num → num < 576460752303423488 → ∃ s r, mockCompactOts gen rnd num = some (s, r) ∧ r.size 0 = some num ∧
      (∀ i < num, r.getChoice 0 i = .ok ((gen i).getLsbD 0) ∧ ∃ x, s.getBlock 0 i 0 = .ok x ∧ x.getLsbD 0 = false ∧ s.getBlock 0 i 1 = .ok (x ^^^ s.delta) ∧ (x ^^^ s.delta).getLsbD 0 = true) ∧
      ∀ cs, (∀ c ∈ cs, Call.Sane c) → ∀ h, Agree (s.run cs) (r.run cs) h) ∧
    (num = 0 → mockCompactOts gen rnd num = none) := by
  constructor
  · intro h0 hbig
    unfold mockCompactOts
    simp only
    have hbit : (rnd ||| 1).getLsbD 0 = true := by
      rw [BitVec.getLsbD_or]
      simp
    have hd : rnd ||| 1 ≠ 0 := by
      intro h
      rw [h] at hbit
      exact absurd hbit (by decide)
    generalize rnd ||| 1 = delta at *
    generalize hsend : (List.range num).map (fun i => gen i ^^^ ((gen i &&& 1) * delta)) = send
    generalize hrecv : (List.range num).map gen = recv
    have sl : send.length = num := by rw [← hsend]; simp
    have rl : recv.length = num := by rw [← hrecv]; simp
    obtain ⟨e1, i1⟩ := mkFam_ok 1 (Or.inl rfl) send num (by omega) sl (Nat.one_dvd _) (by omega)
    obtain ⟨e2, i2⟩ := mkFam_ok 1 (Or.inl rfl) recv num (by omega) rl (Nat.one_dvd _) (by omega)
    generalize hF : (⟨1, send, [⟨0, num, 0, num⟩]⟩ : Fam B) = F at *
    generalize hG : (⟨1, recv, [⟨0, num, 0, num⟩]⟩ : Fam B) = G at *
    have p : Paired 1 F G := ⟨Or.inl rfl, by rw [← hF], by rw [← hG], by rw [← hF, ← hG]; simp only; omega, by rw [← hF, ← hG]; simp [scale], i1, i2⟩
    have hs0 : G.hs[0]? = some ⟨0, num, 0, num⟩ := by rw [← hG]; rfl
    have hmsg : ∀ j < num, ∀ c, msgOf ⟨F, delta⟩ j c = if c then (gen j ^^^ ((gen j &&& 1) * delta)) ^^^ delta else gen j ^^^ ((gen j &&& 1) * delta) := by
      intro j hj c
      unfold msgOf
      simp only
      rw [if_neg hd, ← hF, ← hsend]
      simp only [Nat.one_mul]
      rw [getD_range num (fun i => gen i ^^^ ((gen i &&& 1) * delta)) j hj]
    have hrg : ∀ j < num, G.buf.getD j 0 = gen j := by
      intro j hj
      rw [← hG, ← hrecv]
      exact getD_range num gen j hj
    have hch : ∀ j < num, choiceOf ⟨G, none⟩ j = (gen j).getLsbD 0 := by
      intro j hj
      show (G.buf.getD j 0).getLsbD 0 = _
      rw [hrg j hj]
    have hlow : ∀ j, (gen j ^^^ ((gen j &&& 1) * delta)).getLsbD 0 = false := by
      intro j
      rw [lsb_mul, BitVec.getLsbD_xor]
      by_cases h : (gen j).getLsbD 0
      · rw [if_pos h, h, hbit]; rfl
      · rw [if_neg h]
        simp only [Bool.not_eq_true] at h
        rw [h]; rfl
    have hb : ∀ b, (none : Option (List Bool)) = some b → b.length = G.buf.length := fun b hb => absurd hb (by simp)
    refine ⟨⟨F, delta⟩, ⟨G, none⟩, ?_, ?_, ?_, ?_⟩
    · unfold both makeCompactOtSendStore makeCompactOtRecvStore
      rw [sl, rl, e1, e2]
      rfl
    · unfold Recv.size
      simp only [hs0, Option.map_some]
    · intro i hi
      have k2 := (recv_get (r := ⟨G, none⟩) p hb hs0 (i := i) hi).2.1
      have k3 := send_get (s := ⟨F, delta⟩) p (fun h => absurd h hd) hs0 (i := i) hi false
      have k4 := send_get (s := ⟨F, delta⟩) p (fun h => absurd h hd) hs0 (i := i) hi true
      simp only [Nat.zero_add] at k2 k3 k4
      rw [hmsg i hi] at k3 k4
      rw [hch i hi] at k2
      refine ⟨k2, _, k3, ?_, k4, ?_⟩
      · exact hlow i
      · show ((gen i ^^^ ((gen i &&& 1) * delta)) ^^^ delta).getLsbD 0 = true
        rw [BitVec.getLsbD_xor, hlow i, hbit]
        rfl
    · intro cs hcs h
      refine agree_of (m := 1) p (fun h => absurd h hd) hb ?_ cs hcs h
      intro j hj
      have hj' : j < num := by
        rw [← rl]
        rw [← hG] at hj
        exact hj
      rw [hmsg j hj', hch j hj']
      show G.buf.getD j 0 = _
      rw [hrg j hj', lsb_mul]
      by_cases h : (gen j).getLsbD 0
      · rw [h]
        simp [BitVec.xor_assoc]
      · simp only [Bool.not_eq_true] at h
        rw [h]
        simp
  · rintro rfl
    unfold mockCompactOts both makeCompactOtSendStore
    simp only [List.range_zero, List.map_nil, List.length_nil]
    rw [mkFam_none _ _ _ rfl]
    rfl

/-- The receiver's maker refuses choices and blocks of different numbers. -/
theorem C119_makers (choices : List Bool) (blocks : List B) (h : choices.length ≠ blocks.length) : makeOtRecvStore choices blocks = none := by
  unfold makeOtRecvStore
  rw [if_neg h]

/-- With delta 0, `MockCots` makes a compact store that `GetBlock` takes for a store of random OTs: its OT 1 is block 2, and the second message of a single OT is read outside the buffer. -/
theorem C119_zero_delta_violated (gen : Nat → B) :
    (∃ s r, mockCots gen 3 0 [false, false, false] = some (s, r) ∧ r.getBlock 0 1 = .ok (gen 1) ∧ s.getBlock 0 1 0 = .ok (gen 2)) ∧
    ∃ s r, mockCots gen 1 0 [false] = some (s, r) ∧ s.getBlock 0 0 1 = .ub := by
  refine ⟨⟨⟨⟨1, [gen 0, gen 1, gen 2], [⟨0, 3, 0, 3⟩]⟩, 0⟩, ⟨⟨1, [gen 0, gen 1, gen 2], [⟨0, 3, 0, 3⟩]⟩, some [false, false, false]⟩, rfl, rfl, rfl⟩,
    ⟨⟨⟨1, [gen 0], [⟨0, 1, 0, 1⟩]⟩, 0⟩, ⟨⟨1, [gen 0], [⟨0, 1, 0, 1⟩]⟩, some [false]⟩, rfl, rfl⟩⟩

/-- Five random OTs, cut by both parties into two and one, after a call that fails: the slice number 2 holds OT 2. -/
example : ∃ s r, mockRots (fun i => BitVec.ofNat 128 (i + 10)) 5 [true, false, true, true, false] = some (s, r) ∧
    (let cs := [Call.next 0 2, .next 0 9, .next 0 1]
     (∀ c ∈ cs, Call.Sane c) ∧ (r.run cs).getBlock 2 0 = .ok 15 ∧ (s.run cs).getBlock 2 0 1 = .ok 15 ∧ (s.run cs).size 2 = some 1) := by
  refine ⟨_, _, rfl, ?_, rfl, rfl, rfl⟩
  intro c hc
  simp only [List.mem_cons, List.not_mem_nil, or_false] at hc
  rcases hc with rfl | rfl | rfl <;> simp [Call.Sane]

end Yacl.OtMock
