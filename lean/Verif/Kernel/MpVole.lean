import Verif.Kernel.Mpfss
import Verif.Gf.Hash

/-! Multi-point VOLE over GF(2^64) and GF(2^128): yacl/kernel/algorithms/mp_vole.h. Property C42.

`T` and `K` are words of `v` and `w` bits; a `T` is used as a `K` by zero extension. The hash of the check (`Blake3`) is an arbitrary function. -/
namespace Yacl.MpVole
open Ggm Mpfss Gf

/-! ### Model -/

/-- mp_vole.h L183-193: reset `a`, insert the base VOLE values. -/
def insertA {v : Nat} (p : Param) (idx : Nat → Nat) (preA : List (BitVec v)) : List (BitVec v) :=
  (List.range p.noise).foldl (fun a i => a.set (i * p.sp + idx i) (preA.getD i 0)) (List.replicate p.size 0)

def insertB {w : Nat} (p : Param) (idx : Nat → Nat) (preB : List (BitVec w)) (b : List (BitVec w)) : List (BitVec w) :=
  (List.range p.noise).foldl (fun b i => b.set (i * p.sp + idx i) (b.getD (i * p.sp + idx i) 0 ^^^ preB.getD i 0)) b

/-- mp_vole.h L195-211: the payload sent and the masked hash kept. `inner` is `math::GfMul` on spans. -/
def recvCheck {w v : Nat} (mul : BitVec w → BitVec w → BitVec w) (inner : List (BitVec w) → List (BitVec v) → Option (BitVec w)) (p : Param) (idx : Nat → Nat)
    (preA : List (BitVec v)) (preB : List (BitVec w)) (seed : BitVec w) (b : List (BitVec w)) : Option (BitVec w × BitVec w) :=
  let indexes := (List.range p.noise).map fun i => BitVec.ofNat 64 (i * p.sp + idx i)
  match extractHashCoef mul seed indexes with
  | none => none
  | some coef =>
    match inner coef (preA.take indexes.length) with
    | none => none
    | some payload => some (payload ^^^ (preA.getD (p.baseNum - 1) 0).setWidth w, universalHash mul seed (b.take p.size) ^^^ preB.getD (p.baseNum - 1) 0)

/-- mp_vole.h L106-118: the sender's side of the check. -/
def sendCheck {w : Nat} (mul : BitVec w → BitVec w → BitVec w) (p : Param) (delta : BitVec w) (preC : List (BitVec w)) (seed : BitVec w) (c : List (BitVec w)) (payload : BitVec w) : BitVec w :=
  universalHash mul seed (c.take p.size) ^^^ mul payload delta ^^^ preC.getD (p.baseNum - 1) 0

/-- What the receiver does with the result `r` of `MpfssRecv` (mp_vole.h L183-221), against a sender holding `c`: the vectors `a`, `b`; `none` if anything throws,
including the comparison of the hashes. -/
def finish {w v : Nat} (mul : BitVec w → BitVec w → BitVec w) (inner : List (BitVec w) → List (BitVec v) → Option (BitVec w)) (blake : BitVec w → BitVec 256)
    (mal : Bool) (p : Param) (idx : Nat → Nat) (preA : List (BitVec v)) (preB preC : List (BitVec w)) (delta seed : BitVec w) (c r : List (BitVec w)) :
    Option (List (BitVec v) × List (BitVec w)) :=
  let a := insertA p idx preA
  let b := insertB p idx preB r
  if mal then
    match recvCheck mul inner p idx preA preB seed b with
    | none => none
    | some (payload, uhash) => if blake uhash = blake (sendCheck mul p delta preC seed c payload) then some (a, b) else none
  else some (a, b)

/-- One run of `MpVoleSender::Send` and `MpVoleReceiver::Recv` (mp_vole.h L90-121, L167-224) with `fixed_index = false`, from `OneTimeSetup` on: `(c, a, b)`. -/
def run {w v : Nat} (mul : BitVec w → BitVec w → BitVec w) (inner : List (BitVec w) → List (BitVec v) → Option (BitVec w)) (conv : B → BitVec w) (h crh : B → B)
    (blake : BitVec w → BitVec 256) (ot : Base) (otDelta : B) (seeds : Nat → B) (mal : Bool) (p : Param) (preA : List (BitVec v)) (preB preC : List (BitVec w))
    (delta seed : BitVec w) : Option (List (BitVec w) × List (BitVec v) × List (BitVec w)) :=
  if p.baseNum = preC.length ∧ p.baseNum = preA.length ∧ p.baseNum = preB.length then
    match mpfssSend (xorOp w) conv h crh ot otDelta seeds p preC (fun i => gywzMask (slice ot (i * height p.sp)) (p.idx.getD i 0)) with
    | none => none
    | some (gm, msgs, c) =>
      match mpfssRecv (xorOp w) conv h crh ot p gm msgs with
      | none => none
      | some r =>
        match finish mul inner blake mal p (fun i => p.idx.getD i 0) preA preB preC delta seed c r with
        | none => none
        | some (a, b) => some (c, a, b)
  else none

/-- The same with `fixed_index = true`. -/
def runFixed {w v : Nat} (mul : BitVec w → BitVec w → BitVec w) (inner : List (BitVec w) → List (BitVec v) → Option (BitVec w)) (conv : B → BitVec w) (full : Bool)
    (h crh : B → B) (blake : BitVec w → BitVec 256) (ot : Base) (otDelta : B) (seeds : Nat → B) (mal : Bool) (p : Param) (preA : List (BitVec v))
    (preB preC : List (BitVec w)) (delta seed : BitVec w) : Option (List (BitVec w) × List (BitVec v) × List (BitVec w)) :=
  if p.baseNum = preC.length ∧ p.baseNum = preA.length ∧ p.baseNum = preB.length then
    match mpfssFixedSend (xorOp w) conv full h crh ot otDelta seeds p preC with
    | none => none
    | some (gm, msgs, c) =>
      match mpfssFixedRecv (xorOp w) conv full h crh ot p gm msgs with
      | none => none
      | some (r, idx) =>
        match finish mul inner blake mal p (fun i => idx.getD i 0) preA preB preC delta seed c r with
        | none => none
        | some (a, b) => some (c, a, b)
  else none

/-- `is_setup_` and `is_finish_` (mp_vole.h L128-130, L231-233). -/
structure Flags where
  setup : Bool := false
  finish : Bool := false

/-- mp_vole.h L70-87 `MpVoleSender::OneTimeSetup`. -/
def senderSetup (_ : Flags) : Flags := ⟨true, false⟩

/-- mp_vole.h L144-163 `MpVoleReceiver::OneTimeSetup`: `is_finish_` keeps its value. -/
def receiverSetup (f : Flags) : Flags := { f with setup := true }

/-- mp_vole.h L94-95 and L120, L171-172 and L223: the checks at the start and the assignment at the end of `Send` and of `Recv`; `none` if the call throws. -/
def useOnce (f : Flags) : Option Flags := if f.setup = true ∧ f.finish = false then some { f with finish := true } else none

/-! ### Specification -/

/-- `c = a * delta + b` everywhere; `a` holds `preA` at the chosen points and is zero elsewhere. -/
def Vole {w v : Nat} (mul : BitVec w → BitVec w → BitVec w) (size noise : Nat) (point : Nat → Nat) (preA : Nat → BitVec v) (delta : BitVec w)
    (c : List (BitVec w)) (a : List (BitVec v)) (b : List (BitVec w)) : Prop :=
  c.length = size ∧ a.length = size ∧ b.length = size ∧
  (∀ (k : Nat) x y z, c[k]? = some x → a[k]? = some y → b[k]? = some z → x = mul (y.setWidth w) delta ^^^ z) ∧
  (∀ i < noise, a[point i]? = some (preA i)) ∧
  ∀ k y, (∀ i < noise, k ≠ point i) → a[k]? = some y → y = 0

/-- The three instances of the template: what the field operations compute. -/
structure Field (w v : Nat) where
  mul : BitVec w → BitVec w → BitVec w
  inner : List (BitVec w) → List (BitVec v) → Option (BitVec w)
  R : Type
  [ring : CommRing R]
  val : BitVec w → R
  rep : Rep mul val
  inj : ∀ x y, val x = val y → x = y
  inner_val : ∀ (x : List (BitVec w)) (y : List (BitVec v)), x.length = y.length →
    ∃ z, inner x y = some z ∧ val z = ((x.zip y).map fun q => val q.1 * val (q.2.setWidth w)).sum

attribute [instance] Field.ring

/-! ### Lemmas -/

theorem add_self {w v : Nat} (F : Field w v) (r : BitVec w) : F.val r + F.val r = 0 := by
  rw [← F.rep.add, BitVec.xor_self]
  exact F.rep.zero

theorem insertA_spec {v : Nat} (p : Param) (idx : Nat → Nat) (preA : List (BitVec v)) (hidx : ∀ i < p.noise - 1, idx i < p.sp)
    (hb : ∀ i < p.noise, i * p.sp + idx i < p.size) :
    (insertA p idx preA).length = p.size ∧ (∀ i < p.noise, (insertA p idx preA)[i * p.sp + idx i]? = some (preA.getD i 0)) ∧
    ∀ k < p.size, (∀ i < p.noise, k ≠ i * p.sp + idx i) → (insertA p idx preA)[k]? = some 0 := by
  unfold insertA
  have key : ∀ n, n ≤ p.noise → ∀ F, F = (List.range n).foldl (fun a i => a.set (i * p.sp + idx i) (preA.getD i 0)) (List.replicate p.size 0) →
      F.length = p.size ∧ (∀ i < n, F[i * p.sp + idx i]? = some (preA.getD i 0)) ∧ ∀ k < p.size, (∀ i < n, k ≠ i * p.sp + idx i) → F[k]? = some 0 := by
    intro n hn
    induction n with
    | zero =>
      rintro F rfl
      refine ⟨by simp, fun i hi => by omega, fun k hk _ => ?_⟩
      simp [List.getElem?_replicate, hk]
    | succ n ih =>
      rintro F rfl
      obtain ⟨h1, h2, h3⟩ := ih (by omega) _ rfl
      rw [List.range_succ, List.foldl_append]
      simp only [List.foldl_cons, List.foldl_nil]
      generalize (List.range n).foldl (fun a i => a.set (i * p.sp + idx i) (preA.getD i 0)) (List.replicate p.size 0) = F at *
      refine ⟨by rw [List.length_set]; exact h1, ?_, ?_⟩
      · intro i hi
        by_cases he : i = n
        · subst he
          rw [List.getElem?_set_self (by rw [h1]; exact hb i (by omega))]
        · rw [List.getElem?_set_ne (fun e => he (pos_inj p.sp p.noise idx hidx n i (by omega) (by omega) e).symm)]
          exact h2 i (by omega)
      · intro k hk hne
        rw [List.getElem?_set_ne (fun e => hne n (by omega) e.symm)]
        exact h3 k hk (fun i hi => hne i (by omega))
  exact key p.noise (le_refl _) _ rfl

theorem insertB_eq {w : Nat} (p : Param) (idx : Nat → Nat) (preB b : List (BitVec w)) :
    insertB p idx preB b = fixup (xorOp w) p idx [] preB b := by
  unfold insertB fixup
  congr 1
  funext o i
  show _ = o.set _ (_ ^^^ (_ ^^^ 0#w))
  rw [BitVec.xor_zero]
  rfl

section Weighted
variable {R : Type} [CommRing R]

theorem weighted_set (s : R) (l : List R) (k : Nat) (x y : R) (hk : l[k]? = some y) : weighted s (l.set k x) = weighted s l + (x - y) * s ^ (k + 1) := by
  induction l generalizing k with
  | nil => simp at hk
  | cons a l ih =>
    cases k with
    | zero =>
      simp only [List.getElem?_cons_zero, Option.some.injEq] at hk
      subst hk
      rw [List.set_cons_zero, weighted_append, weighted_append]
      ring
    | succ k =>
      rw [List.set_cons_succ, weighted_append, weighted_append, ih k (by simpa using hk)]
      ring

theorem weighted_add (s d : R) (c a b : List R) (h1 : c.length = a.length) (h2 : a.length = b.length)
    (h : ∀ (k : Nat) x y z, c[k]? = some x → a[k]? = some y → b[k]? = some z → x = y * d + z) : weighted s c = d * weighted s a + weighted s b := by
  induction c generalizing a b with
  | nil =>
    have ha := List.length_eq_zero_iff.mp h1.symm
    subst ha
    have hb := List.length_eq_zero_iff.mp h2.symm
    subst hb
    simp [weighted]
  | cons x c ih =>
    cases a with
    | nil => simp at h1
    | cons y a =>
      cases b with
      | nil => simp at h2
      | cons z b =>
        rw [weighted_append, weighted_append, weighted_append, ih a b (by simpa using h1) (by simpa using h2) (fun k x y z e1 e2 e3 => h (k + 1) x y z (by simpa using e1) (by simpa using e2) (by simpa using e3)),
          h 0 x y z rfl rfl rfl]
        ring

theorem weighted_zero (s : R) (n : Nat) : weighted s (List.replicate n 0) = 0 := by
  induction n with
  | zero => rfl
  | succ n ih => rw [List.replicate_succ, weighted_append, ih]; ring

end Weighted

theorem weighted_insertA {v : Nat} {R : Type} [CommRing R] (g : BitVec v → R) (g0 : g 0 = 0) (s : R) (p : Param) (idx : Nat → Nat) (preA : List (BitVec v))
    (hidx : ∀ i < p.noise - 1, idx i < p.sp) (hb : ∀ i < p.noise, i * p.sp + idx i < p.size) :
    weighted s ((insertA p idx preA).map g) = ((List.range p.noise).map fun i => s ^ (i * p.sp + idx i + 1) * g (preA.getD i 0)).sum := by
  unfold insertA
  have key : ∀ n, n ≤ p.noise → ∀ F, F = (List.range n).foldl (fun a i => a.set (i * p.sp + idx i) (preA.getD i 0)) (List.replicate p.size 0) →
      F.length = p.size ∧ (∀ k < p.size, (∀ i < n, k ≠ i * p.sp + idx i) → F[k]? = some 0) ∧
      weighted s (F.map g) = ((List.range n).map fun i => s ^ (i * p.sp + idx i + 1) * g (preA.getD i 0)).sum := by
    intro n hn
    induction n with
    | zero =>
      rintro F rfl
      refine ⟨by simp, fun k hk _ => by simp [List.getElem?_replicate, hk], ?_⟩
      simp only [List.range_zero, List.foldl_nil, List.map_replicate, g0, List.map_nil, List.sum_nil]
      exact weighted_zero _ _
    | succ n ih =>
      rintro F rfl
      obtain ⟨h1, h2, h3⟩ := ih (by omega) _ rfl
      rw [List.range_succ, List.foldl_append]
      simp only [List.foldl_cons, List.foldl_nil]
      generalize (List.range n).foldl (fun a i => a.set (i * p.sp + idx i) (preA.getD i 0)) (List.replicate p.size 0) = F at *
      refine ⟨by rw [List.length_set]; exact h1, ?_, ?_⟩
      · intro k hk hne
        rw [List.getElem?_set_ne (fun e => hne n (by omega) e.symm)]
        exact h2 k hk (fun i hi => hne i (by omega))
      · have hz := h2 _ (hb n (by omega)) (fun i hi e => by
          have := pos_inj p.sp p.noise idx hidx n i (by omega) (by omega) e
          omega)
        rw [List.map_set, weighted_set s _ _ _ 0 (by rw [List.getElem?_map, hz]; exact congrArg some g0), h3, List.map_append, List.sum_append]
        simp only [List.map_cons, List.map_nil, List.sum_cons, List.sum_nil]
        ring
  exact (key p.noise (le_refl _) _ rfl).2.2

/-- From a multi-point sharing of `preC` to the VOLE correlation. -/
theorem vole_of_multiPoint {w v : Nat} (F : Field w v) (p : Param) (idx : Nat → Nat) (hidx : ∀ i < p.noise - 1, idx i < p.sp)
    (hb : ∀ i < p.noise, i * p.sp + idx i < p.size) (preA : List (BitVec v)) (preB preC : List (BitVec w)) (delta : BitVec w)
    (hpre : ∀ i < p.noise, preC.getD i 0 = F.mul ((preA.getD i 0).setWidth w) delta ^^^ preB.getD i 0) (c r : List (BitVec w))
    (hm : MultiPoint (· ^^^ ·) p.size p.noise p.sp idx (fun i => preC.getD i 0) c r) :
    Vole F.mul p.size p.noise (fun i => i * p.sp + idx i) (fun i => preA.getD i 0) delta c (insertA p idx preA) (insertB p idx preB r) := by
  obtain ⟨m1, m2, m3, m4⟩ := hm
  obtain ⟨a1, a2, a3⟩ := insertA_spec p idx preA hidx hb
  obtain ⟨b1, b2, b3⟩ := fixup_get (xorOp w) p idx [] preB r hidx (fun i hi => by rw [m2]; exact hb i hi)
  rw [← insertB_eq] at b1 b2 b3
  refine ⟨m1, a1, by rw [b1, m2], ?_, a2, ?_⟩
  · intro k x y z hx hy hz
    by_cases hk : ∃ i, i < p.noise ∧ k = i * p.sp + idx i
    · obtain ⟨i, hi, rfl⟩ := hk
      obtain ⟨x', y', e1, e2, e3⟩ := m3 i hi
      rw [a2 i hi] at hy
      rw [b2 i hi, List.getD_eq_getElem?_getD, e2] at hz
      rw [e1] at hx
      simp only [Option.some.injEq] at hx hy hz
      subst hx hy
      rw [← hz, e3]
      show y' ^^^ preC.getD i 0 = _ ^^^ (y' ^^^ (preB.getD i 0 ^^^ 0#w))
      rw [hpre i hi, BitVec.xor_zero]
      ac_rfl
    · have hk' : ∀ i < p.noise, k ≠ i * p.sp + idx i := fun i hi e => hk ⟨i, hi, e⟩
      have hks : k < p.size := by
        rw [← m1]
        exact (List.getElem?_eq_some_iff.mp hx).1
      rw [a3 k hks hk'] at hy
      rw [b3 k hk', ← m4 k hk', hx] at hz
      simp only [Option.some.injEq] at hy hz
      subst hy hz
      have : F.mul (BitVec.setWidth w (0 : BitVec v)) delta = 0 := by
        apply F.inj
        rw [F.rep.mul]
        have e : BitVec.setWidth w (0 : BitVec v) = 0 := by simp
        rw [e, F.rep.zero, zero_mul]
      rw [this]
      exact (BitVec.zero_xor).symm
  · intro k y hk hy
    have hks : k < p.size := by
      rw [← a1]
      exact (List.getElem?_eq_some_iff.mp hy).1
    rw [a3 k hks hk] at hy
    simp only [Option.some.injEq] at hy
    exact hy.symm

theorem range_map_zip {α β γ : Type} (n : Nat) (f : Nat → α) (l : List β) (d : β) (hl : n ≤ l.length) (g : α × β → γ) :
    (((List.range n).map f).zip (l.take n)).map g = (List.range n).map fun i => g (f i, l.getD i d) := by
  apply List.ext_getElem?
  intro k
  by_cases hk : k < n
  · have hz : (((List.range n).map f).zip (l.take n))[k]? = some (f k, l.getD k d) := by
      rw [List.getElem?_zip_eq_some]
      refine ⟨by rw [List.getElem?_map, List.getElem?_range hk]; rfl, ?_⟩
      rw [List.getElem?_take_of_lt hk, List.getElem?_eq_getElem (by omega), List.getD_eq_getElem?_getD, List.getElem?_eq_getElem (by omega)]
      rfl
    rw [List.getElem?_map, hz, List.getElem?_map, List.getElem?_range hk]
    rfl
  · rw [List.getElem?_eq_none (by simp; omega), List.getElem?_eq_none (by simp; omega)]

/-- The check of honest parties succeeds when the last chosen point is at least 2. -/
theorem check_complete {w v : Nat} (F : Field w v) (p : Param) (hn : 0 < p.noise) (idx : Nat → Nat) (hidx : ∀ i < p.noise - 1, idx i < p.sp)
    (hb : ∀ i < p.noise, i * p.sp + idx i < p.size) (h63 : p.size ≤ 2 ^ 63) (hlast : 2 ≤ (p.noise - 1) * p.sp + idx (p.noise - 1))
    (preA : List (BitVec v)) (preB preC : List (BitVec w)) (delta seed : BitVec w) (hA : p.noise ≤ preA.length)
    (hpre : preC.getD (p.baseNum - 1) 0 = F.mul ((preA.getD (p.baseNum - 1) 0).setWidth w) delta ^^^ preB.getD (p.baseNum - 1) 0) (c b : List (BitVec w))
    (hv : Vole F.mul p.size p.noise (fun i => i * p.sp + idx i) (fun i => preA.getD i 0) delta c (insertA p idx preA) b) :
    ∃ payload uhash, recvCheck F.mul F.inner p idx preA preB seed b = some (payload, uhash) ∧ uhash = sendCheck F.mul p delta preC seed c payload := by
  obtain ⟨v1, v2, v3, v4, -, -⟩ := hv
  generalize hI : (List.range p.noise).map (fun i => BitVec.ofNat 64 (i * p.sp + idx i)) = I
  have hnat : ∀ i < p.noise, (BitVec.ofNat 64 (i * p.sp + idx i)).toNat = i * p.sp + idx i := by
    intro i hi
    rw [BitVec.toNat_ofNat]
    exact Nat.mod_eq_of_lt (by have := hb i hi; omega)
  have hIl : I.getLast? = some (BitVec.ofNat 64 ((p.noise - 1) * p.sp + idx (p.noise - 1))) := by
    rw [← hI, List.getLast?_eq_getElem?, List.length_map, List.length_range, List.getElem?_map, List.getElem?_range (by omega)]
    rfl
  obtain ⟨coef, hc1, hc2⟩ := coef_val F.rep seed I _ hIl (by
      intro i hi
      rw [← hI, List.mem_map] at hi
      obtain ⟨j, hj, rfl⟩ := hi
      rw [List.mem_range] at hj
      rw [hnat j hj, hnat _ (by omega)]
      by_cases hjl : j = p.noise - 1
      · rw [hjl]
      · have := hidx j (by omega)
        have h2 : (j + 1) * p.sp ≤ (p.noise - 1) * p.sp := Nat.mul_le_mul_right _ (by omega)
        rw [Nat.succ_mul] at h2
        omega) (by rw [hnat _ (by omega)]; exact hlast) (by rw [hnat _ (by omega)]; have := hb (p.noise - 1) (by omega); omega)
  have hIlen : I.length = p.noise := by rw [← hI]; simp
  have hclen : coef.length = p.noise := by
    have := congrArg List.length hc2
    simpa [hIlen] using this
  obtain ⟨ip, hp1, hp2⟩ := F.inner_val coef (preA.take I.length) (by rw [List.length_take, hIlen, hclen]; omega)
  refine ⟨_, _, by unfold recvCheck; simp only [hI, hc1, hp1]; rfl, ?_⟩
  apply F.inj
  -- the combination of the extracted weights is the hash of `a`
  have hip : F.val ip = weighted (F.val seed) ((insertA p idx preA).map fun y => F.val (y.setWidth w)) := by
    rw [weighted_insertA (fun y => F.val (y.setWidth w)) (by
      have e : BitVec.setWidth w (0 : BitVec v) = 0 := by simp
      rw [e, F.rep.zero]) _ p idx preA hidx hb, hp2]
    have hcc : (coef.zip (preA.take I.length)).map (fun q => F.val q.1 * F.val (q.2.setWidth w)) =
        ((coef.map F.val).zip (preA.take I.length)).map (fun q => q.1 * F.val (q.2.setWidth w)) := by
      rw [List.zip_map_left, List.map_map]
      rfl
    rw [hcc, hc2, ← hI, List.map_map, List.length_map, List.length_range, range_map_zip p.noise _ preA 0 hA]
    congr 1
    apply List.map_congr_left
    intro i hi
    rw [List.mem_range] at hi
    simp only [Function.comp]
    rw [hnat i hi]
  have hh : weighted (F.val seed) (c.map F.val) = F.val delta * F.val ip + weighted (F.val seed) (b.map F.val) := by
    rw [hip]
    apply weighted_add
    · simp [v1, v2]
    · simp [v2, v3]
    · intro k x y z hx hy hz
      rw [List.getElem?_map] at hx hy hz
      cases hxc : c[k]? with
      | none => simp [hxc] at hx
      | some x' =>
        cases hyc : (insertA p idx preA)[k]? with
        | none => simp [hyc] at hy
        | some y' =>
          cases hzc : b[k]? with
          | none => simp [hzc] at hz
          | some z' =>
            simp only [hxc, hyc, hzc, Option.map_some, Option.some.injEq] at hx hy hz
            rw [← hx, ← hy, ← hz, v4 k x' y' z' hxc hyc hzc, F.rep.add, F.rep.mul]
  unfold sendCheck
  rw [List.take_of_length_le (by omega), List.take_of_length_le (by omega), F.rep.add, F.rep.add, F.rep.add, F.rep.mul, F.rep.add, universalHash_val F.rep, universalHash_val F.rep, hh, hpre, F.rep.add, F.rep.mul]
  have h2 : ∀ x : BitVec w, F.val x + F.val x = 0 := add_self F
  have e1 : F.val delta * F.val ip + F.val delta * F.val ip = 0 := by rw [← mul_add, h2, mul_zero]
  have e2 : F.val ((preA.getD (p.baseNum - 1) 0).setWidth w) * F.val delta + F.val ((preA.getD (p.baseNum - 1) 0).setWidth w) * F.val delta = 0 := by
    rw [← mul_add, h2, mul_zero]
  linear_combination (-1 : F.R) * e1 - e2

/-- Both results of MPFSS lead to an accepted, correct VOLE. -/
theorem finish_ok {w v : Nat} (F : Field w v) (blake : BitVec w → BitVec 256) (mal : Bool) (p : Param) (hn : 0 < p.noise) (idx : Nat → Nat)
    (hidx : ∀ i < p.noise - 1, idx i < p.sp) (hb : ∀ i < p.noise, i * p.sp + idx i < p.size) (h63 : p.size ≤ 2 ^ 63)
    (hlast : mal = true → 2 ≤ (p.noise - 1) * p.sp + idx (p.noise - 1)) (hbase : p.baseNum = p.noise + (if mal then 1 else 0))
    (preA : List (BitVec v)) (preB preC : List (BitVec w)) (delta seed : BitVec w) (hA : p.noise ≤ preA.length)
    (hpre : ∀ i < p.baseNum, preC.getD i 0 = F.mul ((preA.getD i 0).setWidth w) delta ^^^ preB.getD i 0) (c r : List (BitVec w))
    (hm : MultiPoint (· ^^^ ·) p.size p.noise p.sp idx (fun i => preC.getD i 0) c r) :
    ∃ a b, finish F.mul F.inner blake mal p idx preA preB preC delta seed c r = some (a, b) ∧
      Vole F.mul p.size p.noise (fun i => i * p.sp + idx i) (fun i => preA.getD i 0) delta c a b := by
  have hv := vole_of_multiPoint F p idx hidx hb preA preB preC delta (fun i hi => hpre i (by omega)) c r hm
  refine ⟨_, _, ?_, hv⟩
  unfold finish
  cases mal with
  | false => rfl
  | true =>
    obtain ⟨pl, uh, h1, h2⟩ := check_complete F p hn idx hidx hb h63 (hlast rfl) preA preB preC delta seed hA (hpre _ (by omega)) c _ hv
    simp only [if_true, h1]
    rw [if_pos (by rw [h2])]

/-! ### C42 -/

theorem mk_eq_of_dvd {f g h : Polynomial (ZMod 2)} (hd : f ∣ g - h) : AdjoinRoot.mk f g = AdjoinRoot.mk f h := AdjoinRoot.mk_eq_mk.mpr hd

theorem mk_sum (f : Polynomial (ZMod 2)) {α : Type} (l : List α) (g : α → Polynomial (ZMod 2)) : AdjoinRoot.mk f (l.map g).sum = (l.map fun x => AdjoinRoot.mk f (g x)).sum := by
  rw [map_list_sum, List.map_map]
  rfl

/-- GF(2^128) with `T = uint128_t`. -/
noncomputable def field128 : Field 128 128 where
  mul := gf128Mul
  inner := gf128MulSpan
  R := AdjoinRoot f128
  val := val128
  rep := rep128
  inj := fun _ _ h => val128_inj h
  inner_val := by
    intro x y h
    obtain ⟨z, hz, hd⟩ := C59_inner128 x y h
    refine ⟨z, hz, ?_⟩
    unfold IsInnerProductMod at hd
    have := mk_eq_of_dvd hd
    unfold val128
    rw [← this, mk_sum]
    congr 1

/-- GF(2^64) with `T = uint64_t`. -/
noncomputable def field64 : Field 64 64 where
  mul := gf64Mul
  inner := gf64MulSpan
  R := AdjoinRoot f64
  val := val64
  rep := rep64
  inj := fun _ _ h => val64_inj h
  inner_val := by
    intro x y h
    obtain ⟨z, hz, hd⟩ := C59_inner64 x y h
    refine ⟨z, hz, ?_⟩
    unfold IsInnerProductMod at hd
    have := mk_eq_of_dvd hd
    unfold val64
    rw [← this, mk_sum]
    congr 1

/-- GF(2^128) with `T = uint64_t`. -/
noncomputable def fieldMixed : Field 128 64 where
  mul := gf128Mul
  inner := gfMulMixed
  R := AdjoinRoot f128
  val := val128
  rep := rep128
  inj := fun _ _ h => val128_inj h
  inner_val := by
    intro x y h
    obtain ⟨z, hz, hd⟩ := field128.inner_val x (y.map (·.setWidth 128)) (by simpa using h)
    refine ⟨z, hz, hd.trans ?_⟩
    rw [List.zip_map_right, List.map_map]
    congr 1

theorem points (noise size : Nat) (mal : Bool) (p : Param) (hp : mkParam noise size mal = some p) (idx : Nat → Nat) (hidx : ∀ i < noise, idx i < p.blk i) :
    (∀ i < p.noise - 1, idx i < p.sp) ∧ (∀ i < p.noise, i * p.sp + idx i < p.size) := by
  obtain ⟨h1, h2, h3, h4, h5, h6, h7, h8, h9, h10⟩ := mkParam_some _ _ _ _ hp
  have hs : ∀ i < p.noise - 1, idx i < p.sp := by
    intro i hi
    have := hidx i (by omega)
    unfold Param.blk at this
    rwa [if_neg (by omega)] at this
  refine ⟨hs, ?_⟩
  intro i hi
  by_cases hl : i = p.noise - 1
  · have := hidx i (by omega)
    unfold Param.blk at this
    rw [if_pos hl] at this
    subst hl
    omega
  · have := hs i (by omega)
    have h2 : (i + 1) * p.sp ≤ (p.noise - 1) * p.sp := Nat.mul_le_mul_right _ (by omega)
    rw [Nat.succ_mul] at h2
    omega

/-- What the check of a malicious-secure run needs from the points: at least two blocks, or a point that is neither 0 nor 1. -/
def CheckOk (mal : Bool) (noise : Nat) (idx : Nat → Nat) : Prop := mal = true → 2 ≤ noise ∨ 2 ≤ idx 0

theorem checkOk_last (noise size : Nat) (mal : Bool) (p : Param) (hp : mkParam noise size mal = some p) (idx : Nat → Nat) (h : CheckOk mal noise idx) :
    mal = true → 2 ≤ (p.noise - 1) * p.sp + idx (p.noise - 1) := by
  obtain ⟨h1, h2, h3, h4, -⟩ := mkParam_some _ _ _ _ hp
  intro hm
  rcases h hm with h | h
  · have : 1 * p.sp ≤ (p.noise - 1) * p.sp := Nat.mul_le_mul_right _ (by omega)
    omega
  · by_cases hn : noise = 1
    · rw [h1, hn]
      simpa using h
    · have : 1 * p.sp ≤ (p.noise - 1) * p.sp := Nat.mul_le_mul_right _ (by omega)
      omega

/-- C42, in part. For all three element types, all parameters, all points inside their blocks, all base VOLEs with `pre_c = pre_a * delta + pre_b`, all base COTs,
seeds and hashes: both `Send` and `Recv` succeed, `c = a * delta + b` holds at every position, and `a` is `pre_a` at the points and zero elsewhere. With the malicious
check enabled this needs two blocks or a point of at least 2; see `C42_check_violated`. -/
theorem C42_mp_vole_partial {w v : Nat} (F : Field w v) (conv : B → BitVec w) (h crh : B → B) (blake : BitVec w → BitVec 256) (ot : Base) (otDelta : B)
    (hcot : ∀ i, ot.blk i true = ot.blk i false ^^^ otDelta) (seeds : Nat → B) (noise size : Nat) (mal : Bool) (p : Param) (hp : mkParam noise size mal = some p)
    (h31 : p.last ≤ 2 ^ 31) (h63 : size ≤ 2 ^ 63) (idx : List Nat) (hidx : ∀ i < noise, idx.getD i 0 < p.blk i) (hck : CheckOk mal noise (fun i => idx.getD i 0))
    (preA : List (BitVec v)) (preB preC : List (BitVec w)) (hA : preA.length = p.baseNum) (hB : preB.length = p.baseNum) (hC : preC.length = p.baseNum)
    (delta seed : BitVec w) (hpre : ∀ i < p.baseNum, preC.getD i 0 = F.mul ((preA.getD i 0).setWidth w) delta ^^^ preB.getD i 0) :
    ∃ c a b, run F.mul F.inner conv h crh blake ot otDelta seeds mal { p with idx := idx } preA preB preC delta seed = some (c, a, b) ∧
      Vole F.mul size noise (fun i => i * p.sp + idx.getD i 0) (fun i => preA.getD i 0) delta c a b := by
  obtain ⟨h1, h2, h3, h4, h5, h6, h7, h8, h9, h10⟩ := mkParam_some _ _ _ _ hp
  obtain ⟨gm, msgs, c, r, e1, e2, e3⟩ := C78_mpfss_xor w conv h crh ot otDelta hcot seeds noise size mal p hp h31 idx hidx preC (by rw [hC, h10]; omega)
  obtain ⟨q1, q2⟩ := points noise size mal p hp _ hidx
  obtain ⟨a, b, f1, f2⟩ := finish_ok F blake mal { p with idx := idx } (by simp only; omega) (fun i => idx.getD i 0) q1 q2 (by simp only; omega)
    (checkOk_last noise size mal p hp _ hck) (by simp only; omega) preA preB preC delta seed (by simp only; rw [hA, h10]; omega) hpre c r (by rw [← h1, ← h5] at e3; exact e3)
  refine ⟨c, a, b, ?_, by rw [← h1, ← h5]; exact f2⟩
  unfold run
  rw [if_pos ⟨hC.symm, hA.symm, hB.symm⟩, e1]
  simp only [e2, f1]

/-- The same with `fixed_index = true`: the points are those spelled by the choice bits of the base OTs. -/
theorem C42_mp_vole_fixed_partial {w v : Nat} (F : Field w v) (conv : B → BitVec w) (full : Bool) (h crh : B → B) (blake : BitVec w → BitVec 256) (ot : Base) (otDelta : B)
    (hcot : ∀ i, ot.blk i true = ot.blk i false ^^^ otDelta) (seeds : Nat → B) (noise size : Nat) (mal : Bool) (p : Param) (hp : mkParam noise size mal = some p)
    (h30 : p.last ≤ 2 ^ 30) (h63 : size ≤ 2 ^ 63) (old : List Nat) (idx : Nat → Nat)
    (hidx : ∀ i < noise, idx i < p.blk i ∧ ∀ j < height (p.blk i), (idx i).testBit j = ot.c (i * height p.sp + j)) (hck : CheckOk mal noise idx)
    (preA : List (BitVec v)) (preB preC : List (BitVec w)) (hA : preA.length = p.baseNum) (hB : preB.length = p.baseNum) (hC : preC.length = p.baseNum)
    (delta seed : BitVec w) (hpre : ∀ i < p.baseNum, preC.getD i 0 = F.mul ((preA.getD i 0).setWidth w) delta ^^^ preB.getD i 0) :
    ∃ c a b, runFixed F.mul F.inner conv full h crh blake ot otDelta seeds mal { p with idx := old } preA preB preC delta seed = some (c, a, b) ∧
      Vole F.mul size noise (fun i => i * p.sp + idx i) (fun i => preA.getD i 0) delta c a b := by
  obtain ⟨h1, h2, h3, h4, h5, h6, h7, h8, h9, h10⟩ := mkParam_some _ _ _ _ hp
  obtain ⟨gm, msgs, c, r, e1, e2, -, -, e3⟩ := @C78_mpfss_fixed _ (xorGroup w) conv full h crh ot otDelta hcot seeds noise size mal { p with idx := old } p hp rfl h30 idx hidx preC
    (by rw [hC, h10]; omega)
  have hid : ∀ i < noise, ((List.range noise).map idx).getD i 0 = idx i := fun i hi => getD_map_range _ _ _ _ hi
  generalize (List.range noise).map idx = L at *
  have hidL : ∀ i < noise, L.getD i 0 < p.blk i := fun i hi => by rw [hid i hi]; exact (hidx i hi).1
  obtain ⟨q1, q2⟩ := points noise size mal p hp (fun i => L.getD i 0) hidL
  have hckL : CheckOk mal noise (fun i => L.getD i 0) := by
    intro hm
    have := hck hm
    simp only
    rwa [hid 0 h2]
  have e3' : MultiPoint (· ^^^ ·) p.size p.noise p.sp (fun i => L.getD i 0) (fun i => preC.getD i 0) c r := by
    rw [h5, h1]
    obtain ⟨m1, m2, m3, m4⟩ := e3
    refine ⟨m1, m2, fun i hi => ?_, fun k hk => m4 k (fun i hi => ?_)⟩
    · have := m3 i hi
      simp only
      rw [hid i hi]
      exact this
    · have := hk i hi
      simp only at this
      rwa [hid i hi] at this
  obtain ⟨a, b, f1, f2⟩ := finish_ok F blake mal { p with idx := old } (by simp only; omega) (fun i => L.getD i 0) q1 q2 (by simp only; omega)
    (checkOk_last noise size mal p hp _ hckL) (by simp only; omega) preA preB preC delta seed (by simp only; rw [hA, h10]; omega) hpre c r e3'
  refine ⟨c, a, b, ?_, ?_⟩
  · unfold runFixed
    rw [if_pos ⟨hC.symm, hA.symm, hB.symm⟩]
    have e1' : mpfssFixedSend (xorOp w) conv full h crh ot otDelta seeds { p with idx := old } preC = some (gm, msgs, c) := e1
    have e2' : mpfssFixedRecv (xorOp w) conv full h crh ot { p with idx := old } gm msgs = some (r, L) := e2
    rw [e1']
    simp only [e2', f1]
  · obtain ⟨v1, v2, v3, v4, v5, v6⟩ := f2
    rw [h5] at v1 v2 v3
    refine ⟨v1, v2, v3, v4, fun i hi => ?_, fun k y hk hy => v6 k y (fun i hi => ?_) hy⟩
    · have := v5 i (by simp only; omega)
      simp only at this
      rwa [hid i hi] at this
    · simp only
      rw [hid i (by simp only at hi; omega)]
      exact hk i (by simp only at hi; omega)

/-- The check rejects honest parties when there is one block and its point is 0 or 1. For point 0 it always throws. For point 1 the payload misses `pre_a[0]`, and for
suitable values the hashes compared belong to different words (any collision-free hash tells them apart). -/
theorem C42_check_violated :
    (∀ (preA preB preC : List (BitVec 64)) (delta seed : BitVec 64) (c r : List (BitVec 64)) (blake : BitVec 64 → BitVec 256),
      finish gf64Mul gf64MulSpan blake true ⟨2, 1, 4, 4, 4, 2, [0]⟩ (fun _ => 0) preA preB preC delta seed c r = none) ∧
    ∃ (preA preB preC : List (BitVec 64)) (delta seed : BitVec 64) (c r : List (BitVec 64)),
      MultiPoint (· ^^^ ·) 4 1 4 (fun _ => 1) (fun i => preC.getD i 0) c r ∧ (∀ i < 2, preC.getD i 0 = gf64Mul (preA.getD i 0) delta ^^^ preB.getD i 0) ∧
      ∀ blake : BitVec 64 → BitVec 256, Function.Injective blake →
        finish gf64Mul gf64MulSpan blake true ⟨2, 1, 4, 4, 4, 2, [1]⟩ (fun _ => 1) preA preB preC delta seed c r = none := by
  refine ⟨?_, [1, 0], [0, 0], [1, 0], 1, 2, [0, 1, 0, 0], [0, 0, 0, 0], ⟨rfl, rfl, ?_, ?_⟩, by decide +kernel, ?_⟩
  · intro preA preB preC delta seed c r blake
    have : extractHashCoef gf64Mul seed [BitVec.ofNat 64 0] = none := (C73_coef_violated seed).1
    have e : (List.range 1).map (fun i => BitVec.ofNat 64 (i * 4 + 0)) = [BitVec.ofNat 64 0] := rfl
    simp only [finish, if_true, recvCheck, e, this]
  · intro i hi
    obtain rfl : i = 0 := by omega
    exact ⟨1, 0, rfl, rfl, by decide⟩
  · intro k hk
    have : k ≠ 1 := hk 0 (by omega)
    match k with
    | 0 => rfl
    | 1 => omega
    | 2 => rfl
    | 3 => rfl
    | k + 4 => rfl
  · intro blake hb
    have e1 : recvCheck gf64Mul gf64MulSpan ⟨2, 1, 4, 4, 4, 2, [1]⟩ (fun _ => 1) ([1, 0] : List (BitVec 64)) [0, 0] 2
        (insertB ⟨2, 1, 4, 4, 4, 2, [1]⟩ (fun _ => 1) [0, 0] [0, 0, 0, 0]) = some (0, 0) := by decide +kernel
    have e2 : sendCheck gf64Mul ⟨2, 1, 4, 4, 4, 2, [1]⟩ 1 [1, 0] 2 [0, 1, 0, 0] 0 = (4 : BitVec 64) := by decide +kernel
    simp only [finish, if_true, e1, e2]
    rw [if_neg]
    intro e
    exact absurd (hb e) (by decide)

/-- C42, one-time use. After any number of further set-ups the sender can send again, exactly once each; without a new set-up `Send` and `Recv` throw. -/
theorem C42_once (f g : Flags) : useOnce f = some g → useOnce g = none ∧ ∃ g', useOnce (senderSetup g) = some g' ∧ useOnce g' = none := by
  intro h
  unfold useOnce at h
  split at h
  · simp only [Option.some.injEq] at h
    subst h
    simp [useOnce, senderSetup]
  · simp at h

/-- The receiver cannot be set up again: `OneTimeSetup` does not clear `is_finish_`, so every later `Recv` throws, while the peer's `Send` goes through. -/
theorem C42_resetup_violated (f g : Flags) : useOnce f = some g → useOnce (receiverSetup g) = none := by
  intro h
  unfold useOnce at h
  split at h
  · simp only [Option.some.injEq] at h
    subst h
    simp [useOnce, receiverSetup]
  · simp at h

example : useOnce (receiverSetup {}) = some ⟨true, true⟩ := rfl

/-- The hypotheses hold for a malicious-secure run with two blocks: base VOLEs over GF(2^64). -/
example : ∃ p, mkParam 2 9 true = some p ∧ p.baseNum = 3 ∧ (∀ i < 2, [3, 4].getD i 0 < p.blk i) ∧ CheckOk true 2 (fun i => [3, 4].getD i 0) ∧
    ∀ i < 3, ([gf64Mul 5 7 ^^^ 1, gf64Mul 6 7 ^^^ 2, gf64Mul 9 7 ^^^ 3] : List (BitVec 64)).getD i 0 =
      gf64Mul ((([5, 6, 9] : List (BitVec 64)).getD i 0).setWidth 64) 7 ^^^ ([1, 2, 3] : List (BitVec 64)).getD i 0 :=
  ⟨_, rfl, rfl, by decide, fun _ => .inl (by decide), by decide +kernel⟩

end Yacl.MpVole
