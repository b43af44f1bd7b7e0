import Verif.Vss.Props

/-! Threshold proxy re-encryption: yacl/crypto/experimental/tpre/{keys.cc, capsule.cc, hash.cc}.
Property C52.

The elliptic curve group is an arbitrary commutative group with a generator `g` of prime order `n`
(`GetOrder()`); `Mul(P, k)` is `k • P`.  `CipherHash` on points and on strings, point serialisation, `MPInt::ToString` and
`KDF ∘ SerializePoint` are arbitrary functions.  Random values are arguments. -/
namespace Yacl.Tpre
open Vss (addMod subMod mulMod invertMod polyVal cast_add cast_sub cast_mul cast_mod polyVal_cons polyVal_zero
  toPoly toPoly_eval toPoly_degree Distinct distinct_iff mapM_mem mapM_length mapM_exists foldlM_none invertMod_cases smul_mod)

/-- mp_int.cc `MPInt::PowMod` for a non-negative exponent. -/
def powMod (a : Int) (k : Nat) (m : Int) : Int := a ^ k % m

/-- The primitives: hash.cc L28-60 (two overloads of `CipherHash`), `MPInt::ToString`, `SerializePoint`, kdf.cc applied to a
serialised point. -/
structure Prims (G : Type) where
  hashPts : List G → Int
  hashStr : List (BitVec 8) → Int
  str : Int → List (BitVec 8)
  ser : G → List (BitVec 8)
  kdf : G → List (BitVec 8)

variable {G : Type} [AddCommGroup G] [DecidableEq G]

/-- keys.h `KFrag`. -/
structure KFrag (G : Type) where
  id : Int
  rk : Int
  X_A : G
  U : G
  U_1 : G
  z_1 : Int
  z_2 : Int

/-- capsule.h L43-47 `CapsuleStruct`. -/
structure Capsule (G : Type) where
  E : G
  V : G
  s : Int

/-- capsule.h L50-55 `CFrag`. -/
structure CFrag (G : Type) where
  E_1 : G
  V_1 : G
  id : Int
  X_A : G

/-- keys.cc L21-37 `GenerateKeyPair` for the draw `x`: the public point. -/
def publicKey (g : G) (x : Int) : G := x • g

/-- keys.cc L103-113: the polynomial at `s`. -/
def rkAt (coeffs : List Int) (t : Nat) (s n : Int) : Int :=
  (List.range (t - 1)).foldl (fun rk j =>
    addMod rk (mulMod (coeffs.getD (j + 1) 0) (powMod s (j + 1) n) n) n) (coeffs.getD 0 0)

/-- keys.cc L86-136: one round of the fragment loop, with draws `y` and `id`. -/
def kfragAt (P : Prims G) (g : G) (n : Int) (skA : Int) (pkA pkB X_A U : G) (D : Int) (coeffs : List Int)
    (t : Nat) (y id : Int) : KFrag G :=
  let sx := P.hashStr (P.str id ++ P.str D)
  let Y := y • g
  let rk := rkAt coeffs t sx n
  let U1 := rk • U
  let z1 := P.hashStr (P.ser Y ++ P.str id ++ P.ser pkA ++ P.ser pkB ++ P.ser U1 ++ P.ser X_A)
  ⟨id, rk, X_A, U, U1, z1, subMod y (mulMod skA z1 n) n⟩

/-- keys.cc L40-138 `GenerateReKey`.  Draws: `xA`, the coefficients `fs` (`t - 1` many), `r0` for `U`, and a
pair `(y, id)` per fragment. -/
def generateReKey (P : Prims G) (g : G) (n : Int) (skA : Int) (pkA pkB : G) (t : Nat)
    (xA : Int) (fs : List Int) (r0 : Int) (draws : List (Int × Int)) : Option (List (KFrag G)) :=
  let X_A := xA • g
  let d := P.hashPts [X_A, pkB, xA • pkB]
  (invertMod d n).map fun dInv =>
    let coeffs := mulMod skA dInv n :: fs
    let D := P.hashPts [pkA, pkB, skA • pkB]
    let U := r0 • g
    draws.map fun yi => kfragAt P g n skA pkA pkB X_A U D coeffs t yi.1 yi.2

/-- capsule.cc L26-47 `EnCapsulate` with draws `r`, `u`. -/
def enCapsulate (P : Prims G) (g : G) (n : Int) (pk : G) (r u : Int) : Capsule G × List (BitVec 8) :=
  let E := r • g
  let V := u • g
  let s := addMod u (mulMod r (P.hashPts [E, V]) n) n
  (⟨E, V, s⟩, P.kdf (addMod u r n • pk))

/-- capsule.cc L50-60 `DeCapsulate`. -/
def deCapsulate (P : Prims G) (sk : Int) (c : Capsule G) : List (BitVec 8) :=
  P.kdf (sk • (c.E + c.V))

/-- capsule.cc L62-75 `CheckCapsule`. -/
def checkCapsule (P : Prims G) (g : G) (c : Capsule G) : Bool :=
  decide (c.s • g = c.V + P.hashPts [c.E, c.V] • c.E)

/-- capsule.cc L80-102 `ReEncapsulate`. -/
def reEncapsulate (P : Prims G) (g : G) (k : KFrag G) (c : Capsule G) : Option (CFrag G) :=
  if checkCapsule P g c then some ⟨k.rk • c.E, k.rk • c.V, k.id, k.X_A⟩ else none

/-- capsule.cc L129-147: `lambda_i`. -/
def lambdaAt (S : List Int) (n : Int) (i : Nat) : Option Int :=
  (List.range S.length).foldlM (fun lam j =>
    if i ≠ j then
      (invertMod (subMod (S.getD j 0) (S.getD i 0) n) n).map fun inv => mulMod lam (mulMod inv (S.getD j 0) n) n
    else some lam) 1

/-- capsule.cc L152-161: `E'` and `V'`, from the second fragment on. -/
def combine : G × G → List (CFrag G × Int) → G × G
  | acc, [] => acc
  | acc, (c, l) :: rest => combine (acc.1 + l • c.E_1, acc.2 + l • c.V_1) rest

/-- capsule.cc L104-175 `DeCapsulateFrags`; an empty vector of fragments is read out of bounds. -/
def deCapsulateFrags (P : Prims G) (n : Int) (skB : Int) (pkA pkB : G) (cfrags : List (CFrag G)) :
    Option (List (BitVec 8)) :=
  let D := P.hashPts [pkA, pkB, skB • pkA]
  let S := cfrags.map fun c => P.hashStr (P.str c.id ++ P.str D)
  match (List.range cfrags.length).mapM (lambdaAt S n), cfrags with
  | some (l0 :: ls), c0 :: cs =>
    let ev := combine (l0 • c0.E_1, l0 • c0.V_1) (cs.zip ls)
    let d := P.hashPts [c0.X_A, pkB, skB • c0.X_A]
    some (P.kdf (d • (ev.1 + ev.2)))
  | _, _ => none

/-! ### Lemmas -/

section
variable {p : ℕ}

theorem lambda_cases [Fact p.Prime] (S : List Int) (i : ℕ) (hi : i < S.length) :
    ((∃ j, j < S.length ∧ j ≠ i ∧ (S.getD j 0 : ZMod p) = (S.getD i 0 : Int)) ∧ lambdaAt S p i = none) ∨
    ((∀ j, j < S.length → j ≠ i → (S.getD j 0 : ZMod p) ≠ (S.getD i 0 : Int)) ∧
      ∃ r, lambdaAt S p i = some r ∧ (r : ZMod p) =
        ∏ j ∈ (Finset.range S.length).erase i,
          (((S.getD i 0 : Int) : ZMod p) - (S.getD j 0 : Int))⁻¹ * (0 - (S.getD j 0 : Int))) := by
  by_cases h : ∃ j, j < S.length ∧ j ≠ i ∧ (S.getD j 0 : ZMod p) = (S.getD i 0 : Int)
  · left
    refine ⟨h, ?_⟩
    obtain ⟨j, hj, hne, he⟩ := h
    apply foldlM_none _ _ j (by simpa using hj)
    intro acc
    rw [if_pos (Ne.symm hne)]
    rcases invertMod_cases (p := p) (subMod (S.getD j 0) (S.getD i 0) p) with ⟨_, h⟩ | ⟨h, _⟩
    · rw [h]; rfl
    · rw [cast_sub, he, sub_self] at h; exact absurd rfl h
  · right
    push Not at h
    refine ⟨h, ?_⟩
    unfold lambdaAt
    suffices hs : ∀ m, m ≤ S.length → ∃ r, (List.range m).foldlM (fun lam j =>
        if i ≠ j then
          (invertMod (subMod (S.getD j 0) (S.getD i 0) p) p).map fun inv => mulMod lam (mulMod inv (S.getD j 0) p) p
        else some lam) 1 = some r ∧ (r : ZMod p) = ∏ j ∈ (Finset.range m).erase i,
          (((S.getD i 0 : Int) : ZMod p) - (S.getD j 0 : Int))⁻¹ * (0 - (S.getD j 0 : Int)) from hs _ (le_refl _)
    intro m
    induction m with
    | zero => intro _; exact ⟨1, rfl, by simp⟩
    | succ m ih =>
      intro hm
      obtain ⟨r, hr, hc⟩ := ih (by omega)
      by_cases hmi : i = m
      · refine ⟨r, ?_, ?_⟩
        · rw [List.range_succ, List.foldlM_append, hr]
          simp [hmi]
        · rw [hc]
          congr 1
          ext k; simp; omega
      · have hnz : ((S.getD m 0 : Int) : ZMod p) - (S.getD i 0 : Int) ≠ 0 :=
          sub_ne_zero.2 (h m (by omega) (Ne.symm hmi))
        rcases invertMod_cases (p := p) (subMod (S.getD m 0) (S.getD i 0) p) with ⟨h0, _⟩ | ⟨_, b, hb, hbi⟩
        · rw [cast_sub] at h0; exact absurd h0 hnz
        · refine ⟨mulMod r (mulMod b (S.getD m 0) p) p, ?_, ?_⟩
          · rw [List.range_succ, List.foldlM_append, hr]
            simp only [Option.bind_eq_bind, Option.bind_some, List.foldlM_cons, List.foldlM_nil]
            rw [if_pos hmi, hb]
            rfl
          · have e : (Finset.range (m + 1)).erase i = insert m ((Finset.range m).erase i) := by
              ext k; simp; omega
            rw [e, Finset.prod_insert (by simp), ← hc]
            simp only [cast_mul, hbi, cast_sub]
            rw [← neg_sub ((S.getD m 0 : Int) : ZMod p) (S.getD i 0 : Int), inv_neg]
            ring

theorem lagrange_zero [Fact p.Prime] (cs S : List Int) (hd : Distinct p S) (hl : cs.length ≤ S.length) :
    ∑ i ∈ Finset.range S.length, ((polyVal cs (S.getD i 0) : Int) : ZMod p) *
      ∏ j ∈ (Finset.range S.length).erase i,
          (((S.getD i 0 : Int) : ZMod p) - (S.getD j 0 : Int))⁻¹ * (0 - (S.getD j 0 : Int)) =
    ((polyVal cs 0 : Int) : ZMod p) := by
  rw [← toPoly_eval]
  have e := Lagrange.eq_interpolate_of_eval_eq (s := Finset.range S.length)
    (v := fun i => ((S.getD i 0 : Int) : ZMod p)) (r := fun i => ((polyVal cs (S.getD i 0) : Int) : ZMod p))
    (f := toPoly p cs) (by
      intro a ha b hb hab
      simp at ha hb
      exact hd a b ha hb hab)
    (by rw [Finset.card_range]; exact toPoly_degree cs _ hl)
    (by intro i _; rw [toPoly_eval])
  rw [e, Lagrange.interpolate_apply]
  simp [Polynomial.eval_finsetSum, Lagrange.basis, Lagrange.basisDivisor, Polynomial.eval_prod]

theorem rkAt_cast (f0 : Int) (fs : List Int) (t : ℕ) (ht : fs.length = t - 1) (s : Int) :
    ((rkAt (f0 :: fs) t s p : Int) : ZMod p) = (polyVal (f0 :: fs) s : Int) := by
  unfold rkAt
  have : ∀ m, m ≤ fs.length → (((List.range m).foldl (fun rk j =>
      addMod rk (mulMod ((f0 :: fs).getD (j + 1) 0) (powMod s (j + 1) p) p) p) ((f0 :: fs).getD 0 0) : Int) : ZMod p) =
      ∑ i ∈ Finset.range (m + 1), (((f0 :: fs).getD i 0 * s ^ i : Int) : ZMod p) := by
    intro m
    induction m with
    | zero => intro _; simp
    | succ m ih =>
      intro hm
      rw [List.range_succ, List.foldl_append, Finset.sum_range_succ, ← ih (by omega)]
      simp only [List.foldl_cons, List.foldl_nil, cast_add, cast_mul, powMod, cast_mod]
      push_cast
      rfl
  rw [← ht, this _ (le_refl _)]
  unfold polyVal
  push_cast
  rfl

end

theorem combine_eq (acc : G × G) (l : List (CFrag G × Int)) :
    combine acc l = (acc.1 + (l.map fun x => x.2 • x.1.E_1).sum, acc.2 + (l.map fun x => x.2 • x.1.V_1).sum) := by
  induction l generalizing acc with
  | nil => simp [combine]
  | cons a l ih =>
    obtain ⟨c, k⟩ := a
    rw [combine, ih]
    simp [add_assoc]

theorem zsmul_of_cast {g : G} {n : ℕ} (hg : addOrderOf g = n) {a b : Int} (h : (a : ZMod n) = b) : a • g = b • g := by
  rw [zsmul_eq_zsmul_iff_modEq, hg]
  exact (ZMod.intCast_eq_intCast_iff _ _ _).1 h

theorem mapM_get {α β : Type} (f : α → Option β) (l : List α) (r : List β) (h : l.mapM f = some r) (i : ℕ)
    (hi : i < l.length) : f l[i] = r[i]? := by
  induction l generalizing r i with
  | nil => simp at hi
  | cons a l ih =>
    rw [List.mapM_cons] at h
    cases hf : f a with
    | none => simp [hf] at h
    | some b =>
      cases hm : l.mapM f with
      | none => simp [hf, hm] at h
      | some r' =>
        simp [hf, hm] at h
        subst h
        cases i with
        | zero => simpa using hf
        | succ i => simpa using ih r' hm i (by simpa using hi)

theorem mapM_none {α β : Type} (f : α → Option β) (l : List α) (a : α) (ha : a ∈ l) (h : f a = none) :
    l.mapM f = none := by
  cases hm : l.mapM f with
  | none => rfl
  | some r =>
    obtain ⟨i, hi, rfl⟩ := List.mem_iff_getElem.1 ha
    have h1 := mapM_get f l r hm i hi
    have h2 := mapM_length f l r hm
    rw [h, List.getElem?_eq_getElem (by omega)] at h1
    cases h1

/-- A weighted sum of multiples of `g`. -/
theorem weighted {g : G} {n : ℕ} (hg : addOrderOf g = n) {α : Type} (l : List α) (ls : List Int) (pt : α → G)
    (e : ℕ → Int) (hl : ls.length = l.length) (he : ∀ i (hi : i < l.length), pt l[i] = e i • g) :
    ((l.zip ls).map fun x => x.2 • pt x.1).sum =
      (∑ i ∈ Finset.range l.length, ls.getD i 0 * e i) • g := by
  induction l generalizing ls e with
  | nil => simp
  | cons a l ih =>
    cases ls with
    | nil => simp at hl
    | cons b ls =>
      rw [List.zip_cons_cons, List.map_cons, List.sum_cons, List.length_cons, Finset.sum_range_succ',
        ih ls (fun i => e (i + 1)) (by simpa using hl) (fun i hi => he (i + 1) (by simpa using hi))]
      have h0 := he 0 (by simp)
      simp only [List.getElem_cons_zero] at h0
      rw [h0, ← mul_zsmul, ← add_zsmul]
      simp [add_comm, mul_comm]

theorem map_cast_sum {n : ℕ} (ls : List Int) (e : ℕ → Int) (m : ℕ) :
    ((∑ i ∈ Finset.range m, ls.getD i 0 * e i : Int) : ZMod n) =
      ∑ i ∈ Finset.range m, ((e i : Int) : ZMod n) * ((ls.getD i 0 : Int) : ZMod n) := by
  push_cast
  exact Finset.sum_congr rfl fun i _ => mul_comm _ _

/-! ### C52 -/

/-- C52: decapsulation by the owner of the private key gives the key of the encapsulation. -/
theorem C52_delegator (P : Prims G) (g : G) (n : ℕ) (hg : addOrderOf g = n) (skA r u : Int) :
    deCapsulate P skA (enCapsulate P g n (publicKey g skA) r u).1 =
      (enCapsulate P g n (publicKey g skA) r u).2 := by
  unfold deCapsulate enCapsulate publicKey
  simp only
  congr 1
  rw [← add_zsmul, ← mul_zsmul, ← mul_zsmul]
  apply zsmul_of_cast hg
  push_cast [cast_add]
  ring

/-- C52: `CheckCapsule` on a capsule whose points are `e • g` and `v • g` accepts exactly the right `s`. -/
theorem C52_check_iff (P : Prims G) (g : G) (n : ℕ) (hg : addOrderOf g = n) (e v s : Int) :
    checkCapsule P g ⟨e • g, v • g, s⟩ = true ↔ s ≡ v + e * P.hashPts [e • g, v • g] [ZMOD n] := by
  unfold checkCapsule
  rw [decide_eq_true_iff, ← mul_zsmul, ← add_zsmul, zsmul_eq_zsmul_iff_modEq, hg, mul_comm]

/-- The point at which the sharing polynomial is evaluated for the proxy with identity `id`. -/
def point (P : Prims G) (g : G) (skA skB : Int) (id : Int) : Int :=
  P.hashStr (P.str id ++ P.str (P.hashPts [skA • g, skB • g, (skA * skB) • g]))

/-- C52: the delegatee.  For all keys, thresholds, draws and hash functions: if re-key generation
succeeds, then the honest capsule can be re-encapsulated under every fragment, and from any selection `used` of
at least `t` of the key fragments (in any order), whose evaluation points are pairwise different modulo the
order, the delegatee's decapsulation gives exactly the key of the encapsulation.  If two points coincide
it throws. -/
theorem C52_delegatee (P : Prims G) (g : G) (n : ℕ) (hn : n.Prime) (hg : addOrderOf g = n)
    (skA skB r u xA r0 : Int) (t : ℕ) (fs : List Int) (draws : List (Int × Int)) (kfrags used : List (KFrag G))
    (hfs : fs.length = t - 1)
    (hk : generateReKey P g n skA (publicKey g skA) (publicKey g skB) t xA fs r0 draws = some kfrags)
    (hused : ∀ k ∈ used, k ∈ kfrags) (ht : t ≤ used.length) (hpos : used ≠ []) :
    ∃ cfrags, used.mapM (fun k => reEncapsulate P g k (enCapsulate P g n (publicKey g skA) r u).1) = some cfrags ∧
      ((used.map fun k => point P g skA skB k.id).Pairwise (fun a b => ¬ a ≡ b [ZMOD n]) →
        deCapsulateFrags P n skB (publicKey g skA) (publicKey g skB) cfrags =
          some (enCapsulate P g n (publicKey g skA) r u).2) ∧
      (¬ (used.map fun k => point P g skA skB k.id).Pairwise (fun a b => ¬ a ≡ b [ZMOD n]) →
        deCapsulateFrags P n skB (publicKey g skA) (publicKey g skB) cfrags = none) := by
  haveI : Fact n.Prime := ⟨hn⟩
  set cap := (enCapsulate P g n (publicKey g skA) r u).1 with hcap
  have hcapE : cap.E = r • g := rfl
  have hcapV : cap.V = u • g := rfl
  have hchk : checkCapsule P g cap = true := by
    refine (C52_check_iff P g n hg r u _).2 ?_
    apply (ZMod.intCast_eq_intCast_iff _ _ _).1
    push_cast [cast_add, cast_mul]
    rfl
  have hre : ∀ k : KFrag G, reEncapsulate P g k cap = some ⟨k.rk • cap.E, k.rk • cap.V, k.id, k.X_A⟩ := by
    intro k; unfold reEncapsulate; rw [if_pos hchk]
  have hmap : used.mapM (fun k => reEncapsulate P g k cap) =
      some (used.map fun k => ⟨k.rk • cap.E, k.rk • cap.V, k.id, k.X_A⟩) := by
    clear hused ht hpos
    induction used with
    | nil => rfl
    | cons a l ih => rw [List.mapM_cons, hre, ih]; rfl
  refine ⟨_, hmap, ?_⟩
  -- the re-key
  unfold generateReKey publicKey at hk
  rcases invertMod_cases (p := n) (P.hashPts [xA • g, skB • g, xA • skB • g]) with ⟨_, h0⟩ | ⟨hdn, dInv, hdI, hdc⟩
  · simp only [h0] at hk; simp at hk
  simp only [hdI, Option.map_some, Option.some.injEq] at hk
  have hD : P.hashPts [skA • g, skB • g, skA • skB • g] = P.hashPts [skA • g, skB • g, (skA * skB) • g] := by
    rw [mul_zsmul]
  have hD2 : P.hashPts [skA • g, skB • g, skB • skA • g] = P.hashPts [skA • g, skB • g, (skA * skB) • g] := by
    rw [mul_comm, mul_zsmul]
  set cs := mulMod skA dInv n :: fs with hcs
  have hkf : ∀ k ∈ used, k.X_A = xA • g ∧ (k.rk : ZMod n) = (polyVal cs (point P g skA skB k.id) : Int) := by
    intro k hku
    have := hused k hku
    rw [← hk] at this
    obtain ⟨yi, _, rfl⟩ := List.mem_map.1 this
    refine ⟨rfl, ?_⟩
    unfold kfragAt
    simp only
    rw [hcs, rkAt_cast _ _ _ hfs, hD]
    rfl
  -- decapsulation
  set cf : List (CFrag G) := used.map fun k => ⟨k.rk • cap.E, k.rk • cap.V, k.id, k.X_A⟩ with hcf
  have hlen : cf.length = used.length := by simp [hcf]
  set S : List Int := used.map fun k => point P g skA skB k.id with hS
  have hSlen : S.length = used.length := by simp [hS]
  have hSeq : (cf.map fun c => P.hashStr (P.str c.id ++ P.str (P.hashPts [skA • g, skB • g, skB • skA • g]))) = S := by
    rw [hD2, hcf, List.map_map]; rfl
  unfold deCapsulateFrags publicKey
  simp only [hSeq]
  rw [hlen, ← hSlen, ← distinct_iff]
  constructor
  · intro hd
    have hex : ∃ ls, (List.range S.length).mapM (lambdaAt S n) = some ls := by
      apply mapM_exists
      intro i hi
      have hi := List.mem_range.1 hi
      rcases lambda_cases (p := n) S i hi with ⟨⟨j, hj, hne, he⟩, _⟩ | ⟨_, l, hl, _⟩
      · exact absurd (hd j i hj hi he) hne
      · exact ⟨l, hl⟩
    obtain ⟨ls, hls⟩ := hex
    have hll := mapM_length _ _ _ hls
    rw [List.length_range] at hll
    rw [hls]
    have hlam : ∀ i, i < S.length → ((ls.getD i 0 : Int) : ZMod n) = ∏ j ∈ (Finset.range S.length).erase i,
          (((S.getD i 0 : Int) : ZMod n) - (S.getD j 0 : Int))⁻¹ * (0 - (S.getD j 0 : Int)) := by
      intro i hi
      have h1 := mapM_get _ _ _ hls i (by simpa using hi)
      rw [List.getElem_range] at h1
      rcases lambda_cases (p := n) S i hi with ⟨⟨j, hj, hne, he⟩, _⟩ | ⟨_, l, hl, hlc⟩
      · exact absurd (hd j i hj hi he) hne
      · rw [hl] at h1
        rw [List.getD_eq_getElem?_getD, ← h1]
        exact hlc
    have hrk : ∀ i (hi : i < used.length), ((used[i].rk : Int) : ZMod n) = (polyVal cs (S.getD i 0) : Int) := by
      intro i hi
      rw [(hkf _ (List.getElem_mem hi)).2, List.getD_eq_getElem _ _ (by omega)]
      simp [hS]
    have hsum : ((∑ i ∈ Finset.range S.length, ls.getD i 0 * (used.map KFrag.rk).getD i 0 : Int) : ZMod n) =
        (skA : ZMod n) * (P.hashPts [xA • g, skB • g, xA • skB • g] : ZMod n)⁻¹ := by
      rw [map_cast_sum, ← hdc]
      have hz : ((polyVal cs 0 : Int) : ZMod n) = (skA : ZMod n) * (dInv : ZMod n) := by
        rw [hcs, polyVal_zero, cast_mul]
      rw [← hz, ← lagrange_zero (p := n) cs S hd (by rw [hcs, hSlen, List.length_cons, hfs]; have := List.length_pos_iff.2 hpos; omega)]
      apply Finset.sum_congr rfl
      intro i hi
      have hi := Finset.mem_range.1 hi
      rw [hlam i hi, ← hrk i (by omega), List.getD_eq_getElem _ _ (by simp; omega)]
      simp
    cases hcfe : cf with
    | nil => rw [hcfe] at hlen; simp at hlen; exact absurd (List.length_eq_zero_iff.1 hlen.symm) hpos
    | cons c0 ct =>
      cases hlse : ls with
      | nil => rw [hlse, hSlen] at hll; simp at hll; exact absurd (List.length_eq_zero_iff.1 hll.symm) hpos
      | cons l0 lt =>
        simp only
        have hX : c0.X_A = xA • g := by
          have : c0 ∈ cf := by rw [hcfe]; simp
          rw [hcf] at this
          obtain ⟨k, hk1, rfl⟩ := List.mem_map.1 this
          exact (hkf k hk1).1
        have hE := weighted hg cf ls CFrag.E_1 (fun i => (used.map KFrag.rk).getD i 0 * r) (by omega) (by
          intro i hi
          rw [List.getD_eq_getElem _ _ (by simp; omega)]
          simp [hcf, hcapE, mul_zsmul])
        have hV := weighted hg cf ls CFrag.V_1 (fun i => (used.map KFrag.rk).getD i 0 * u) (by omega) (by
          intro i hi
          rw [List.getD_eq_getElem _ _ (by simp; omega)]
          simp [hcf, hcapV, mul_zsmul])
        rw [hcfe, hlse] at hE hV
        rw [List.zip_cons_cons, List.map_cons, List.sum_cons] at hE hV
        rw [combine_eq]
        simp only
        rw [hE, hV, hX]
        unfold enCapsulate
        simp only
        congr 2
        rw [← add_zsmul, ← mul_zsmul, ← mul_zsmul g skB xA, ← mul_zsmul g (addMod u r n) skA, mul_comm skB xA,
          mul_zsmul g xA skB]
        apply zsmul_of_cast hg
        have hsr : ∀ w : Int, ((∑ i ∈ Finset.range (c0 :: ct).length, (l0 :: lt).getD i 0 * ((used.map KFrag.rk).getD i 0 * w) : Int) : ZMod n)
            = (skA : ZMod n) * (P.hashPts [xA • g, skB • g, xA • skB • g] : ZMod n)⁻¹ * w := by
          intro w
          rw [← hsum, ← hlse, ← hcfe, hlen, ← hSlen]
          push_cast
          rw [Finset.sum_mul]
          exact Finset.sum_congr rfl fun i _ => by ring
        rw [Int.cast_mul, Int.cast_add, hsr, hsr, Int.cast_mul, cast_add]
        field_simp
        ring
  · intro hd
    unfold Distinct at hd
    push Not at hd
    obtain ⟨i, j, hi, hj, he, hne⟩ := hd
    rw [mapM_none (lambdaAt S n) (List.range S.length) j (List.mem_range.2 hj)]
    rcases lambda_cases (p := n) S j hj with ⟨_, h⟩ | ⟨h, _⟩
    · exact h
    · exact absurd he (h i hi hne)

/-- C52: re-key generation succeeds, with one fragment per draw, exactly when the hash `d` is not a multiple of
the order.  (`CipherHash` is reduced modulo `n - 1` after adding 1, so it can be zero, contrary to the comment in
hash.cc; generation then throws.) -/
theorem C52_rekey_iff (P : Prims G) (g : G) (n : ℕ) (hn : n.Prime) (skA : Int) (pkA pkB : G)
    (t : ℕ) (xA : Int) (fs : List Int) (r0 : Int) (draws : List (Int × Int)) :
    (∃ ks, generateReKey P g n skA pkA pkB t xA fs r0 draws = some ks ∧ ks.length = draws.length ∧
      ks.map KFrag.id = draws.map Prod.snd) ↔
    ¬ (n : Int) ∣ P.hashPts [xA • g, pkB, xA • pkB] := by
  haveI : Fact n.Prime := ⟨hn⟩
  rw [← ZMod.intCast_zmod_eq_zero_iff_dvd]
  unfold generateReKey
  rcases invertMod_cases (p := n) (P.hashPts [xA • g, pkB, xA • pkB]) with ⟨h0, h⟩ | ⟨h0, d, h, _⟩
  · simp only [h, h0]; simp
  · simp only [h]
    refine ⟨fun _ => h0, fun _ => ⟨_, rfl, by simp, ?_⟩⟩
    rw [List.map_map]
    rfl

/-- C52: the proof in fragment number `i` is a Schnorr proof made with the `i`-th nonce: its challenge hashes the
commitment `y • g` together with the fragment's public data, and its answer is `y` minus challenge times key, which
the public key checks.  Every fragment has its own nonce. -/
theorem C52_fragment_proof (P : Prims G) (g : G) (n : ℕ) (hn : 0 < n) (hg : addOrderOf g = n) (skA : Int) (pkB : G)
    (t : ℕ) (xA : Int) (fs : List Int) (r0 : Int) (draws : List (Int × Int)) (ks : List (KFrag G))
    (hk : generateReKey P g n skA (publicKey g skA) pkB t xA fs r0 draws = some ks) (i : ℕ) (y id : Int) (k : KFrag G)
    (hd : draws[i]? = some (y, id)) (hi : ks[i]? = some k) :
    k.id = id ∧ k.U = r0 • g ∧ k.U_1 = k.rk • k.U ∧ k.X_A = xA • g ∧
    k.z_1 = P.hashStr (P.ser (y • g) ++ P.str id ++ P.ser (publicKey g skA) ++ P.ser pkB ++ P.ser k.U_1 ++ P.ser k.X_A) ∧
    k.z_2 ≡ y - skA * k.z_1 [ZMOD n] ∧ k.z_2 • g + k.z_1 • publicKey g skA = y • g := by
  unfold generateReKey at hk
  rw [Option.map_eq_some_iff] at hk
  obtain ⟨d, -, rfl⟩ := hk
  dsimp only at hi
  rw [List.getElem?_map, hd, Option.map_some, Option.some.injEq] at hi
  subst hi
  have hz : ∀ z : Int, subMod y (mulMod skA z n) n ≡ y - skA * z [ZMOD n] := by
    intro z
    unfold subMod mulMod
    exact (Int.mod_modEq _ _).trans (Int.ModEq.sub (Int.ModEq.refl _) (Int.mod_modEq _ _))
  refine ⟨rfl, rfl, rfl, rfl, rfl, hz _, ?_⟩
  have h1 : ∀ z : Int, subMod y (mulMod skA z n) n • g = (y - skA * z) • g := by
    intro z
    exact (zsmul_eq_zsmul_iff_modEq).2 (by rw [hg]; exact hz z)
  simp only [kfragAt, publicKey]
  generalize P.hashStr _ = z
  rw [h1, ← mul_zsmul, ← add_zsmul]
  congr 1
  ring

/-- Concrete primitives for the examples. -/
def toyPrims : Prims (ZMod 13) where
  hashPts l := 1 + (l.map fun x => (x.val : Int)).sum % 11
  hashStr s := s.length
  str x := List.replicate x.natAbs 0
  ser x := List.replicate x.val 1
  kdf x := [BitVec.ofNat 8 x.val]

/-- Non-vacuity: a 2-of-3 re-key in ZMod 13, re-encapsulation under the third and the first fragment, and the
key obtained by both sides. -/
example : ∃ ks cf, generateReKey toyPrims 2 13 3 (publicKey 2 3) (publicKey 2 5) 2 4 [6] 7 [(1, 5), (2, 10), (3, 100)] = some ks ∧
    ks.map KFrag.rk = [8, 12, 6] ∧
    (ks.reverse.take 2).mapM (fun k => reEncapsulate toyPrims 2 k (enCapsulate toyPrims 2 13 (publicKey 2 3) 4 5).1) = some cf ∧
    deCapsulateFrags toyPrims 13 5 (publicKey 2 3) (publicKey 2 5) cf = some (enCapsulate toyPrims 2 13 (publicKey 2 3) 4 5).2 ∧
    (enCapsulate toyPrims 2 13 (publicKey 2 3) 4 5).2 = [2#8] := by
  refine ⟨_, _, rfl, ?_, rfl, ?_, ?_⟩ <;> decide +kernel

end Yacl.Tpre
