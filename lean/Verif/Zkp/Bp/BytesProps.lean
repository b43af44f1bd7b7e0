/-
C116: byte formats of the Bulletproofs proofs.
-/
import Verif.Zkp.Bp.Bytes
import Mathlib.RingTheory.Coprime.Lemmas

namespace Yacl.Bp.Bytes

open Yacl.MPInt (Mp Ok toInt Digit MPInt_serialize toMagBytes toBytes fromMagBytes)

variable {P : Type}

/-! ### integers -/

theorem serInt_length (z : Int) : (serInt z).length = z.natAbs.size / 8 + 1 := leB_length _ _

theorem serInt_bound (z : Int) : z.natAbs < 2 ^ (8 * (z.natAbs.size / 8 + 1) - 1) :=
  Nat.lt_of_lt_of_le (Nat.lt_size_self _) (Nat.pow_le_pow_right (by decide) (by omega))

theorem pow256 (T : Nat) : 256 ^ T = 2 ^ (8 * T) := by
  rw [show (256 : Nat) = 2 ^ 8 by norm_num, ← pow_mul]

theorem serInt_value (z : Int) :
    Nat.ofDigits 256 (serInt z)
      = z.natAbs + if z < 0 then 2 ^ (8 * (z.natAbs.size / 8 + 1) - 1) else 0 := by
  have hb := serInt_bound z
  unfold serInt
  simp only
  rw [ofDigits_leB]
  apply Nat.mod_eq_of_lt
  rw [pow256]
  have : (2 : Nat) ^ (8 * (z.natAbs.size / 8 + 1))
      = 2 ^ (8 * (z.natAbs.size / 8 + 1) - 1) + 2 ^ (8 * (z.natAbs.size / 8 + 1) - 1) := by
    rw [← two_mul, ← pow_succ']
    congr 1
  rw [this]
  split <;> omega

theorem fromMag_serInt (z : Int) (hz : 0 ≤ z) : fromMag (serInt z) = z := by
  unfold fromMag
  rw [serInt_value, if_neg (by omega)]
  simp only [Nat.add_zero, Int.natCast_natAbs]
  exact abs_of_nonneg hz

theorem fromMag_leB32 (n : Nat) (h : n < 256 ^ 32) : fromMag (leB 32 n) = n := by
  unfold fromMag
  rw [ofDigits_leB, Nat.mod_eq_of_lt h]

theorem fromMag_toBytes32 (z : Int) : fromMag (toBytes32 z) = z % 256 ^ 32 := by
  have h0 : 0 ≤ z % 256 ^ 32 := Int.emod_nonneg _ (by positivity)
  have h1 : z % 256 ^ 32 < 256 ^ 32 := Int.emod_lt_of_pos _ (by positivity)
  unfold toBytes32
  rw [fromMag_leB32]
  · exact Int.toNat_of_nonneg h0
  · generalize z % 256 ^ 32 = w at *
    zify
    rw [Int.toNat_of_nonneg h0]
    exact h1

/-- C116 (a): the byte formats used here are those of the digit-level model of `MPInt`. -/
theorem C116_int_bytes {D : Nat} (hD : Digit D) {a : Mp} (ha : Ok D a) (fill : Nat) :
    MPInt_serialize D fill a = some (serInt (toInt D a)) ∧
    (toMagBytes D a (List.replicate 32 0) .little).map (·.1) = (mag32 (toInt D a)).toOption ∧
    (toBytes D a (List.replicate 32 fill) 32 .little = toBytes32 (toInt D a)) ∧
    (∀ buf, (∀ b ∈ buf, b < 256) → toInt D (fromMagBytes D a buf .little) = fromMag buf) := by
  refine ⟨?_, ?_, ?_, ?_⟩
  · obtain ⟨bytes, h1, h2, h3, h4, -⟩ := MPInt.C88_serialize hD ha fill
    rw [h1]
    congr 1
    refine MPInt.list_eq_of_ofDigits (by rw [h2, serInt_length]) h3 (leB_lt _ _) ?_
    rw [h4, serInt_value, h2]
  · have h := MPInt.C88_mag_bytes hD ha (List.replicate 32 0)
    simp only [List.length_replicate] at h
    unfold mag32
    generalize hn : (toInt D a).natAbs = n at h ⊢
    have hiff : n < 256 ^ 32 ↔ (Nat.digits 256 n).length ≤ 32 :=
      (Nat.digits_length_le_iff (by norm_num) n).symm
    by_cases hl : (Nat.digits 256 n).length ≤ 32
    · obtain ⟨out, e1, e2⟩ := h.1 hl .little
      rw [e1, if_pos (hiff.2 hl)]
      simp only [Option.map_some, Except.toOption]
      congr 1
      simp only at e2
      subst e2
      have hd : ∀ d ∈ Nat.digits 256 n, d < 256 := fun d hd => Nat.digits_lt_base (by norm_num) hd
      refine MPInt.list_eq_of_ofDigits ?_ ?_ (leB_lt _ _) ?_
      · simp [leB_length]; omega
      · intro d hdm
        rcases List.mem_append.1 hdm with h' | h'
        · exact hd d h'
        · have := List.mem_of_mem_drop h'
          rw [List.mem_replicate] at this
          omega
      · rw [ofDigits_leB, Nat.mod_eq_of_lt (hiff.2 hl), List.drop_replicate,
          Nat.ofDigits_append_replicate_zero, Nat.ofDigits_digits]
    · rw [h.2 (by omega) .little, if_neg (fun h' => hl (hiff.1 h'))]
      rfl
  · have hlen : (toBytes D a (List.replicate 32 fill) 32 .little).length = 32 := by
      rw [(MPInt.toBytes_spec hD ha .little 32 (List.replicate 32 fill) (by simp)).len]; simp
    apply List.ext_getElem
    · rw [hlen]; exact (leB_length _ _).symm
    · intro i hi hi'
      rw [hlen] at hi
      have h1 := (MPInt.C88_to_bytes hD ha (List.replicate 32 fill) 32 (by simp) i hi).1
      have h2 := MPInt.getD_ofDigits (by norm_num : 1 < 256) (toBytes32 (toInt D a)) (leB_lt _ _) i
      rw [List.getD_eq_getElem _ _ (by omega)] at h1
      rw [List.getD_eq_getElem _ _ hi'] at h2
      have h3 : ((Nat.ofDigits 256 (toBytes32 (toInt D a)) : Nat) : Int) = toInt D a % 256 ^ 32 :=
        fromMag_toBytes32 (toInt D a)
      generalize Nat.ofDigits 256 (toBytes32 (toInt D a)) = v at *
      zify
      rw [h1, h2]
      push_cast
      have key : ∀ z : Int, z / 256 ^ i % 256 = z % 256 ^ 32 / 256 ^ i % 256 := by
        intro z
        obtain ⟨k, hk⟩ : ∃ k, 32 = i + 1 + k := ⟨31 - i, by omega⟩
        have e := Int.emod_add_mul_ediv z (256 ^ 32)
        generalize z % 256 ^ 32 = w at *
        generalize z / 256 ^ 32 = v at *
        subst e
        rw [hk, show (256 : Int) ^ (i + 1 + k) * v = 256 ^ i * (256 * (256 ^ k * v)) by ring,
          Int.add_mul_ediv_left _ _ (by positivity), Int.add_mul_emod_self_left]
      rw [key, h3]
  · intro buf hb
    rw [(MPInt.C88_from_mag hD ha buf hb .little).2.1]
    rfl

/-! ### inner product proofs -/

theorem ippPairs_ok (C : Codec P) (L R : List P) (h : L.length = R.length) :
    ippPairs C L R = .ok ((L.zip R).flatMap fun x => field (C.ser x.1) ++ field (C.ser x.2)) := by
  induction L generalizing R with
  | nil => rfl
  | cons l ls ih =>
    cases R with
    | nil => simp at h
    | cons r rs =>
      rw [ippPairs, ih rs (by simpa using h)]
      rfl

theorem rdPairs_mid (C : Codec P) (L R : List P) (hlen : L.length = R.length)
    (hdes : ∀ p, p ∈ L ∨ p ∈ R → C.des (C.ser p) = some p ∧ (C.ser p).length < 2 ^ 32)
    (bytes pre rest : List Nat) (pos : Nat) (hp : pos = pre.length)
    (hb : bytes = pre ++ (L.zip R).flatMap (fun x => field (C.ser x.1) ++ field (C.ser x.2)) ++ rest) :
    rdPairs C bytes L.length pos = .ok (L, R, pos +
      ((L.zip R).flatMap fun x => field (C.ser x.1) ++ field (C.ser x.2)).length) := by
  induction L generalizing R pre pos with
  | nil =>
    have : R = [] := List.length_eq_zero_iff.1 hlen.symm
    subst this
    rfl
  | cons l ls ih =>
    cases R with
    | nil => simp at hlen
    | cons r rs =>
      have hl := hdes l (by simp)
      have hr := hdes r (by simp)
      simp only [List.zip_cons_cons, List.flatMap_cons] at hb ⊢
      have f1 := rdField_mid bytes pre (C.ser l) (field (C.ser r) ++
        (ls.zip rs).flatMap (fun x => field (C.ser x.1) ++ field (C.ser x.2)) ++ rest) pos
        (by rw [hb]; simp) hp hl.2
      have f2 := rdField_mid bytes (pre ++ field (C.ser l)) (C.ser r)
        ((ls.zip rs).flatMap (fun x => field (C.ser x.1) ++ field (C.ser x.2)) ++ rest)
        (pos + 4 + (C.ser l).length) (by rw [hb]; simp) (by simp [field_length, hp]; omega) hr.2
      have f3 := ih rs (by simpa using hlen)
        (fun p hp => hdes p (by rcases hp with h | h <;> simp [h]))
        (pre ++ field (C.ser l) ++ field (C.ser r)) (pos + 4 + (C.ser l).length + 4 + (C.ser r).length)
        (by simp [field_length, hp]; omega) (by rw [hb]; simp)
      rw [List.length_cons, rdPairs]
      simp only [bind, Except.bind, f1, f2, desPoint, hl.1, hr.1]
      rw [f3]
      simp only [List.length_append, field_length]
      congr 3
      omega

/-- C116 (b): an inner product proof whose scalars are reduced is read back from its bytes,
    whatever follows them. -/
theorem C116_ipp_roundtrip (C : Codec P) (q : Int) (p : Ipp P) (rest : List Nat)
    (hlen : p.L.length = p.R.length) (hlg : p.L.length < 32)
    (hdes : ∀ x, x ∈ p.L ∨ x ∈ p.R → C.des (C.ser x) = some x ∧ (C.ser x).length < 2 ^ 32)
    (ha : 0 ≤ p.a ∧ p.a < q) (hb : 0 ≤ p.b ∧ p.b < q) (hq : q.natAbs.size < 2 ^ 32) :
    ∃ bytes, ippToBytes C p = .ok bytes ∧ ippFromBytes C q (bytes ++ rest) = .ok p := by
  have hsz : ∀ z : Int, 0 ≤ z → z < q → (serInt z).length < 2 ^ 32 := by
    intro z h0 h1
    rw [serInt_length]
    have : z.natAbs.size ≤ q.natAbs.size := Nat.size_le_size (by omega)
    omega
  unfold ippToBytes
  rw [ippPairs_ok C p.L p.R hlen]
  generalize ht : (p.L.zip p.R).flatMap (fun x => field (C.ser x.1) ++ field (C.ser x.2)) = t
  refine ⟨_, rfl, ?_⟩
  generalize hbytes : le4 p.L.length ++ t ++ field (serInt p.a) ++ field (serInt p.b) ++ rest = bytes
  have hl : bytes.length = 4 + t.length + (4 + (serInt p.a).length) + (4 + (serInt p.b).length) + rest.length := by
    rw [← hbytes]; simp [field_length, le4_length]; omega
  unfold ippFromBytes
  rw [if_neg (by omega)]
  have v1 : view bytes 0 4 = .ok (le4 p.L.length) := by
    have := view_mid [] (le4 p.L.length) (t ++ field (serInt p.a) ++ field (serInt p.b) ++ rest) 0 4 rfl
      (le4_length _).symm
    rw [← this, ← hbytes]; simp
  have r1 := rdPairs_mid C p.L p.R hlen hdes bytes (le4 p.L.length)
    (field (serInt p.a) ++ field (serInt p.b) ++ rest) 4 (le4_length _).symm
    (by rw [ht, ← hbytes]; simp)
  rw [ht] at r1
  have f1 := rdField_mid bytes (le4 p.L.length ++ t) (serInt p.a) (field (serInt p.b) ++ rest) (4 + t.length)
    (by rw [← hbytes]; simp) (by simp [le4_length]) (hsz _ ha.1 ha.2)
  have f2 := rdField_mid bytes (le4 p.L.length ++ t ++ field (serInt p.a)) (serInt p.b) rest
    (4 + t.length + 4 + (serInt p.a).length)
    (by rw [← hbytes]) (by simp [le4_length, field_length]; omega) (hsz _ hb.1 hb.2)
  simp only [bind, Except.bind, v1, le4_spec _ (show p.L.length < 2 ^ 32 by omega)]
  rw [if_neg (by omega), r1]
  simp only [f1, f2]
  rw [fromMag_serInt _ ha.1, fromMag_serInt _ hb.1, Int.emod_eq_of_lt ha.1 ha.2, Int.emod_eq_of_lt hb.1 hb.2]

/-- C116 (c): a negative scalar is not read back: the sign bit is taken for a digit. -/
theorem C116_ipp_negative_violated (C : Codec P) (q : Int) (hq : 130 < q) (a : Int) (ha : 0 ≤ a ∧ a < q)
    (hs : q.natAbs.size < 2 ^ 32) :
    ∃ bytes, ippToBytes C ⟨[], [], a, -1⟩ = .ok bytes ∧
      ippFromBytes C q bytes = .ok ⟨[], [], a, 129⟩ ∧ ¬ (129 : Int) ≡ -1 [ZMOD q] := by
  refine ⟨_, rfl, ?_, ?_⟩
  · have hsz : (serInt a).length < 2 ^ 32 := by
      rw [serInt_length]
      have : a.natAbs.size ≤ q.natAbs.size := Nat.size_le_size (by omega)
      omega
    have h129 : serInt (-1) = [129] := by decide
    rw [h129]
    simp only [List.length_nil, List.append_nil]
    generalize hbytes : le4 0 ++ field (serInt a) ++ field [129] = bytes
    have hl : bytes.length = 4 + (4 + (serInt a).length) + 5 := by
      rw [← hbytes]; simp [field_length, le4_length]; omega
    unfold ippFromBytes
    rw [if_neg (by omega)]
    have v1 : view bytes 0 4 = .ok (le4 0) := by
      have := view_mid [] (le4 0) (field (serInt a) ++ field [129]) 0 4 rfl (le4_length _).symm
      rw [← this, ← hbytes]; simp
    have f1 := rdField_mid bytes (le4 0) (serInt a) (field [129]) 4 hbytes.symm (le4_length _).symm hsz
    have f2 := rdField_mid bytes (le4 0 ++ field (serInt a)) [129] [] (4 + 4 + (serInt a).length)
      (by rw [← hbytes]; simp) (by simp [le4_length, field_length]; omega) (by decide)
    simp only [bind, Except.bind, v1, le4_spec 0 (by decide)]
    rw [if_neg (by omega)]
    simp only [rdPairs, f1, f2]
    rw [fromMag_serInt _ ha.1, Int.emod_eq_of_lt ha.1 ha.2]
    have : fromMag [129] % q = 129 := by
      have : fromMag [129] = 129 := by decide
      rw [this, Int.emod_eq_of_lt (by decide) (by omega)]
    rw [this]
  · intro h
    have h130 : q ∣ 130 := by simpa using h.symm.dvd
    have := Int.le_of_dvd (by decide) h130
    omega

/-! ### reading stays inside the input -/

theorem safe_bind {α β : Type} {x : Except Err α} {f : α → Except Err β} (hx : x ≠ .error .oob)
    (hf : ∀ y, f y ≠ .error .oob) : (x >>= f) ≠ .error .oob := by
  cases x with
  | error e =>
    intro h
    apply hx
    simpa [bind, Except.bind] using h
  | ok y => exact hf y

theorem rdField_safe (bytes : List Nat) (pos : Nat) : rdField bytes pos ≠ .error .oob := by
  unfold rdField
  split
  · simp
  · refine safe_bind ?_ fun h => ?_
    · unfold view; rw [if_pos (by omega)]; simp
    · simp only
      split
      · simp
      · refine safe_bind ?_ fun _ => by simp
        unfold view; rw [if_pos (by omega)]; simp

theorem desPoint_safe (C : Codec P) (b : List Nat) : desPoint C b ≠ .error .oob := by
  unfold desPoint; split <;> simp

theorem rdPairs_safe (C : Codec P) (bytes : List Nat) (n pos : Nat) : rdPairs C bytes n pos ≠ .error .oob := by
  induction n generalizing pos with
  | zero => simp [rdPairs]
  | succ n ih =>
    exact safe_bind (rdField_safe _ _) fun _ => safe_bind (desPoint_safe _ _) fun _ =>
      safe_bind (rdField_safe _ _) fun _ => safe_bind (desPoint_safe _ _) fun _ =>
      safe_bind (ih _) fun _ => by simp

theorem ippFromBytes_safe (C : Codec P) (q : Int) (bytes : List Nat) : ippFromBytes C q bytes ≠ .error .oob := by
  unfold ippFromBytes
  split
  · simp
  · refine safe_bind ?_ fun h => ?_
    · unfold view; rw [if_pos (by omega)]; simp
    · simp only
      split
      · simp
      · exact safe_bind (rdPairs_safe _ _ _ _) fun _ => safe_bind (rdField_safe _ _) fun _ =>
          safe_bind (rdField_safe _ _) fun _ => by simp

theorem subspan_safe (bytes : List Nat) (pos n : Nat) : subspan bytes pos n ≠ .error .oob := by
  unfold subspan; split <;> simp

theorem rdPoint_safe (C : Codec P) (bytes : List Nat) (off : Nat) : rdPoint C bytes off ≠ .error .oob :=
  safe_bind (subspan_safe _ _ _) fun _ => desPoint_safe _ _

theorem rdScalar_safe (bytes : List Nat) (off : Nat) : rdScalar bytes off ≠ .error .oob :=
  safe_bind (subspan_safe _ _ _) fun _ => by simp

/-- C116 (d): whatever bytes are read as a proof, no byte outside them is read: the result is a
    proof or an exception. -/
theorem C116_reads_inside (C : Codec P) (q : Int) (bytes : List Nat) :
    ippFromBytes C q bytes ≠ .error .oob ∧ rangeFromBytes C q bytes ≠ .error .oob ∧
    r1csFromBytes C q bytes ≠ .error .oob := by
  refine ⟨ippFromBytes_safe C q bytes, ?_, ?_⟩
  · unfold rangeFromBytes
    split
    · simp
    · exact safe_bind (rdPoint_safe _ _ _) fun _ => safe_bind (rdPoint_safe _ _ _) fun _ =>
        safe_bind (rdPoint_safe _ _ _) fun _ => safe_bind (rdPoint_safe _ _ _) fun _ =>
        safe_bind (rdScalar_safe _ _) fun _ => safe_bind (rdScalar_safe _ _) fun _ =>
        safe_bind (rdScalar_safe _ _) fun _ => safe_bind (subspan_safe _ _ _) fun _ =>
        safe_bind (ippFromBytes_safe _ _ _) fun _ => by simp
  · unfold r1csFromBytes
    have hz : ∀ (v : Nat) (sl : List Nat) (o : Nat),
        rdPhase2 C v sl o ≠ .error .oob := by
      intro v sl o
      unfold rdPhase2
      split
      · simp
      · exact rdPoint_safe _ _ _
    split
    · simp
    · rename_i version slice
      simp only
      by_cases hl : slice.length < ((if version = 0 then 3 else 6) + 5) * C.len + 3 * 32
      · rw [if_pos hl]; simp
      · rw [if_neg hl]
        exact safe_bind (rdPoint_safe _ _ _) fun _ => safe_bind (rdPoint_safe _ _ _) fun _ =>
          safe_bind (rdPoint_safe _ _ _) fun _ => safe_bind (hz _ _ _) fun _ =>
          safe_bind (hz _ _ _) fun _ => safe_bind (hz _ _ _) fun _ =>
          safe_bind (rdPoint_safe _ _ _) fun _ => safe_bind (rdPoint_safe _ _ _) fun _ =>
          safe_bind (rdPoint_safe _ _ _) fun _ => safe_bind (rdPoint_safe _ _ _) fun _ =>
          safe_bind (rdPoint_safe _ _ _) fun _ =>
          safe_bind (rdScalar_safe _ _) fun _ => safe_bind (rdScalar_safe _ _) fun _ =>
          safe_bind (rdScalar_safe _ _) fun _ => safe_bind (subspan_safe _ _ _) fun _ =>
          safe_bind (ippFromBytes_safe _ _ _) fun _ => by simp

/-! ### range proofs -/

/-- A point whose bytes have the announced length and are read back. -/
def Good (C : Codec P) (p : P) : Prop := (C.ser p).length = C.len ∧ C.des (C.ser p) = some p

/-- What a proof must meet to be read back: reduced scalars, as many `L` as `R`, fewer than 32. -/
structure GoodIpp (C : Codec P) (q : Int) (p : Ipp P) : Prop where
  len : p.L.length = p.R.length
  lg : p.L.length < 32
  pts : ∀ x, x ∈ p.L ∨ x ∈ p.R → Good C x
  a : 0 ≤ p.a ∧ p.a < q
  b : 0 ≤ p.b ∧ p.b < q
  qs : q.natAbs.size < 2 ^ 32
  ps : C.len < 2 ^ 32

theorem GoodIpp.roundtrip {C : Codec P} {q : Int} {p : Ipp P} (h : GoodIpp C q p) (rest : List Nat) :
    ∃ bytes, ippToBytes C p = .ok bytes ∧ ippFromBytes C q (bytes ++ rest) = .ok p :=
  C116_ipp_roundtrip C q p rest h.len h.lg (fun x hx => ⟨(h.pts x hx).2, by
    rw [(h.pts x hx).1]; exact h.ps⟩) h.a h.b h.qs

theorem rdPoint_mid (C : Codec P) (p : P) (hp : Good C p) (bytes pre rest : List Nat) (n : Nat)
    (hb : bytes = pre ++ C.ser p ++ rest) (hn : n = pre.length) : rdPoint C bytes n = .ok p := by
  unfold rdPoint
  rw [subspan_mid bytes pre (C.ser p) rest n C.len hb hn hp.1.symm]
  simp only [bind, Except.bind, desPoint, hp.2]

theorem rdScalar_mid (x : List Nat) (hx : x.length = 32) (bytes pre rest : List Nat) (n : Nat)
    (hb : bytes = pre ++ x ++ rest) (hn : n = pre.length) : rdScalar bytes n = .ok (fromMag x) := by
  unfold rdScalar
  rw [subspan_mid bytes pre x rest n 32 hb hn hx.symm]
  rfl

/-- C116 (e): a range proof is written without leaving the buffer and read back, whatever follows
    its bytes. -/
theorem C116_range_roundtrip (C : Codec P) (q : Int) (fill : Nat) (p : Range P) (rest : List Nat)
    (hA : Good C p.A) (hS : Good C p.S) (h1 : Good C p.T1) (h2 : Good C p.T2)
    (ht : 0 ≤ p.tx ∧ p.tx < 256 ^ 32) (htb : 0 ≤ p.txBlinding ∧ p.txBlinding < 256 ^ 32)
    (he : 0 ≤ p.eBlinding ∧ p.eBlinding < 256 ^ 32) (hi : GoodIpp C q p.ipp) :
    ∃ bytes, rangeToBytes C fill p = .ok bytes ∧ rangeFromBytes C q (bytes ++ rest) = .ok p := by
  obtain ⟨i, hi1, hi2⟩ := hi.roundtrip rest
  have hm : ∀ z : Int, 0 ≤ z ∧ z < 256 ^ 32 → mag32 z = .ok (leB 32 z.natAbs) ∧ fromMag (leB 32 z.natAbs) = z := by
    intro z hz
    have hlt : z.natAbs < 256 ^ 32 := by
      zify
      rw [abs_of_nonneg hz.1]
      exact hz.2
    refine ⟨if_pos hlt, ?_⟩
    rw [fromMag_leB32 _ hlt, Int.natCast_natAbs, abs_of_nonneg hz.1]
  obtain ⟨m1, n1⟩ := hm _ ht
  obtain ⟨m2, n2⟩ := hm _ htb
  obtain ⟨m3, n3⟩ := hm _ he
  have l1 := leB_length 32 p.tx.natAbs
  have l2 := leB_length 32 p.txBlinding.natAbs
  have l3 := leB_length 32 p.eBlinding.natAbs
  generalize leB 32 p.tx.natAbs = b1 at *
  generalize leB 32 p.txBlinding.natAbs = b2 at *
  generalize leB 32 p.eBlinding.natAbs = b3 at *
  refine ⟨C.ser p.A ++ C.ser p.S ++ C.ser p.T1 ++ C.ser p.T2 ++ b1 ++ b2 ++ b3 ++ i, ?_, ?_⟩
  · unfold rangeToBytes
    simp only [m1, m2, m3, hi1, bind, Except.bind]
    rw [putAll_eq, if_pos]
    · simp
    · simp [hA.1, hS.1, h1.1, h2.1, l1, l2, l3]
      omega
  · generalize hbytes : C.ser p.A ++ C.ser p.S ++ C.ser p.T1 ++ C.ser p.T2 ++ b1 ++ b2 ++ b3 ++ i ++ rest = bytes
    have hl : bytes.length = 4 * C.len + 96 + (i ++ rest).length := by
      rw [← hbytes]
      simp [hA.1, hS.1, h1.1, h2.1, l1, l2, l3]
      omega
    have e1 := rdPoint_mid C p.A hA bytes [] (C.ser p.S ++ C.ser p.T1 ++ C.ser p.T2 ++ b1 ++ b2 ++ b3 ++ i ++ rest) 0
      (by rw [← hbytes]; simp) rfl
    have e2 := rdPoint_mid C p.S hS bytes (C.ser p.A) (C.ser p.T1 ++ C.ser p.T2 ++ b1 ++ b2 ++ b3 ++ i ++ rest) C.len
      (by rw [← hbytes]; simp) hA.1.symm
    have e3 := rdPoint_mid C p.T1 h1 bytes (C.ser p.A ++ C.ser p.S) (C.ser p.T2 ++ b1 ++ b2 ++ b3 ++ i ++ rest)
      (2 * C.len) (by rw [← hbytes]; simp) (by simp [hA.1, hS.1]; omega)
    have e4 := rdPoint_mid C p.T2 h2 bytes (C.ser p.A ++ C.ser p.S ++ C.ser p.T1) (b1 ++ b2 ++ b3 ++ i ++ rest)
      (3 * C.len) (by rw [← hbytes]; simp) (by simp [hA.1, hS.1, h1.1]; omega)
    have e5 := rdScalar_mid b1 l1 bytes (C.ser p.A ++ C.ser p.S ++ C.ser p.T1 ++ C.ser p.T2)
      (b2 ++ b3 ++ i ++ rest) (4 * C.len) (by rw [← hbytes]; simp) (by simp [hA.1, hS.1, h1.1, h2.1]; omega)
    have e6 := rdScalar_mid b2 l2 bytes (C.ser p.A ++ C.ser p.S ++ C.ser p.T1 ++ C.ser p.T2 ++ b1)
      (b3 ++ i ++ rest) (4 * C.len + 32) (by rw [← hbytes]; simp) (by simp [hA.1, hS.1, h1.1, h2.1, l1]; omega)
    have e7 := rdScalar_mid b3 l3 bytes (C.ser p.A ++ C.ser p.S ++ C.ser p.T1 ++ C.ser p.T2 ++ b1 ++ b2)
      (i ++ rest) (4 * C.len + 64) (by rw [← hbytes]; simp) (by simp [hA.1, hS.1, h1.1, h2.1, l1, l2]; omega)
    have e8 := subspan_mid bytes (C.ser p.A ++ C.ser p.S ++ C.ser p.T1 ++ C.ser p.T2 ++ b1 ++ b2 ++ b3)
      (i ++ rest) [] (4 * C.len + 96) (bytes.length - (4 * C.len + 96)) (by rw [← hbytes]; simp)
      (by simp [hA.1, hS.1, h1.1, h2.1, l1, l2, l3]; omega) (by omega)
    unfold rangeFromBytes
    rw [if_neg (by omega)]
    simp only [bind, Except.bind, e1, e2, e3, e4, e5, e6, e7, e8, hi2, n1, n2, n3]

/-! ### rank-1 constraint proofs -/

theorem ippToBytes_length (C : Codec P) (p : Ipp P) (hlen : p.L.length = p.R.length)
    (hp : ∀ x, x ∈ p.L ∨ x ∈ p.R → (C.ser x).length = C.len) :
    ∃ bytes, ippToBytes C p = .ok bytes ∧
      bytes.length = 12 + p.L.length * (2 * (4 + C.len)) + (serInt p.a).length + (serInt p.b).length := by
  unfold ippToBytes
  rw [ippPairs_ok C p.L p.R hlen]
  refine ⟨_, rfl, ?_⟩
  have : ∀ (L R : List P), L.length = R.length → (∀ x, x ∈ L ∨ x ∈ R → (C.ser x).length = C.len) →
      ((L.zip R).flatMap fun x => field (C.ser x.1) ++ field (C.ser x.2)).length = L.length * (2 * (4 + C.len)) := by
    intro L
    induction L with
    | nil => intro R _ _; simp
    | cons l ls ih =>
      intro R hlen hp
      cases R with
      | nil => simp at hlen
      | cons r rs =>
        rw [List.zip_cons_cons, List.flatMap_cons, List.length_append, ih rs (by simpa using hlen)
          (fun x hx => hp x (by rcases hx with h | h <;> simp [h])), List.length_append, field_length, field_length,
          hp l (by simp), hp r (by simp), List.length_cons]
        ring
  rw [List.length_append, List.length_append, List.length_append, this p.L p.R hlen hp, le4_length, field_length,
    field_length]
  omega

/-- The points written by `R1CSProof::ToBytes`. -/
def R1csLen (C : Codec P) (p : R1cs P) : Prop :=
  ∀ x ∈ [p.AI1, p.AO1, p.S1, p.T1, p.T3, p.T4, p.T5, p.T6] ++ (if onePhase C p then [] else [p.AI2, p.AO2, p.S2])
    ++ p.ipp.L ++ p.ipp.R, (C.ser x).length = C.len

theorem chunks_length (C : Codec P) (p : R1cs P) (i : List Nat) (h : R1csLen C p) :
    (r1csChunks C p i).flatten.length + ippSize C p.ipp = r1csSize C p + i.length := by
  have h1 := h p.AI1 (by simp)
  have h2 := h p.AO1 (by simp)
  have h3 := h p.S1 (by simp)
  have h4 := h p.T1 (by simp)
  have h5 := h p.T3 (by simp)
  have h6 := h p.T4 (by simp)
  have h7 := h p.T5 (by simp)
  have h8 := h p.T6 (by simp)
  unfold r1csChunks r1csSize toBytes32
  by_cases ho : onePhase C p = true
  · simp only [ho, if_true]
    simp [h1, h2, h3, h4, h5, h6, h7, h8, leB_length]
    omega
  · have g1 := h p.AI2 (by simp [ho])
    have g2 := h p.AO2 (by simp [ho])
    have g3 := h p.S2 (by simp [ho])
    simp only [ho, if_false, Bool.false_eq_true]
    simp [h1, h2, h3, h4, h5, h6, h7, h8, g1, g2, g3, leB_length]
    omega

/-- C116 (f): what `R1CSProof::ToBytes` does, for every proof: it writes behind the end of its
    buffer, throws, or succeeds, depending on the two scalars and the number of rounds alone. -/
theorem C116_r1cs_write (C : Codec P) (fill : Nat) (p : R1cs P) (h : R1csLen C p)
    (hlen : p.ipp.L.length = p.ipp.R.length) :
    let written := 12 + 8 * p.ipp.L.length + (serInt p.ipp.a).length + (serInt p.ipp.b).length
    (64 < written → r1csToBytes C fill p = .error .oob) ∧
    (written < 64 → r1csToBytes C fill p = .error .exn) ∧
    (written = 64 → ∃ i, ippToBytes C p.ipp = .ok i ∧ r1csToBytes C fill p = .ok (r1csChunks C p i).flatten) := by
  obtain ⟨i, hi, hil⟩ := ippToBytes_length C p.ipp hlen (fun x hx => h x (by
    rcases hx with hx | hx <;> simp [hx]))
  have hc := chunks_length C p i h
  have hs : ippSize C p.ipp = p.ipp.L.length * (2 * C.len) + 64 := by unfold ippSize; ring
  have hm : p.ipp.L.length * (2 * (4 + C.len)) = p.ipp.L.length * (2 * C.len) + 8 * p.ipp.L.length := by ring
  unfold r1csToBytes
  simp only [hi, bind, Except.bind]
  rw [putAll_eq]
  generalize p.ipp.L.length * (2 * C.len) = X at *
  generalize p.ipp.L.length * (2 * (4 + C.len)) = Y at *
  refine ⟨fun hw => ?_, fun hw => ?_, fun hw => ⟨i, rfl, ?_⟩⟩
  · rw [if_neg (by omega), if_neg (by omega)]
  · rw [if_neg (by omega), if_pos (by omega)]
  · rw [if_pos (by omega)]

/-- C116 (g), violated: a proof can be written.  Every proof whose two final scalars have 208 bits or more
    (all but a fraction below 2^-46 of the scalars of a 256-bit group) is written beyond the end of
    the buffer. -/
theorem C116_r1cs_write_violated (C : Codec P) (fill : Nat) (p : R1cs P) (h : R1csLen C p)
    (hlen : p.ipp.L.length = p.ipp.R.length)
    (ha : 2 ^ 207 ≤ p.ipp.a) (hb : 2 ^ 207 ≤ p.ipp.b) : r1csToBytes C fill p = .error .oob := by
  have hsz : ∀ z : Int, 2 ^ 207 ≤ z → 27 ≤ (serInt z).length := by
    intro z hz
    rw [serInt_length]
    have : 208 ≤ z.natAbs.size := by
      rw [← Nat.not_lt]
      intro hlt
      have := (Nat.size_le (m := z.natAbs) (n := 207)).1 (by omega)
      omega
    omega
  have h1 := hsz _ ha
  have h2 := hsz _ hb
  exact (C116_r1cs_write C fill p h hlen).1 (by omega)

/-- The three scalars as they are read back. -/
def cutScalars (p : R1cs P) : R1cs P :=
  { p with tx := p.tx % 256 ^ 32, txBlinding := p.txBlinding % 256 ^ 32, eBlinding := p.eBlinding % 256 ^ 32 }

/-- C116 (h): the bytes `R1CSProof::ToBytes` writes, were the buffer large enough, are read back with the
    three scalars cut to 256 bits. -/
theorem C116_r1cs_read (C : Codec P) (q : Int) (p : R1cs P) (rest : List Nat)
    (hg : ∀ x ∈ [p.AI1, p.AO1, p.S1, p.AI2, p.AO2, p.S2, p.T1, p.T3, p.T4, p.T5, p.T6],
      C.inf x = false → Good C x)
    (h1 : ∀ x ∈ [p.AI1, p.AO1, p.S1, p.T1, p.T3, p.T4, p.T5, p.T6], C.inf x = false)
    (h2 : onePhase C p = false → C.inf p.AI2 = false ∧ C.inf p.AO2 = false ∧ C.inf p.S2 = false)
    (hinf : ∀ x, C.inf x = true → x = C.zero) (hi : GoodIpp C q p.ipp) :
    ∃ i, ippToBytes C p.ipp = .ok i ∧
      r1csFromBytes C q ((r1csChunks C p i).flatten ++ rest) = .ok (cutScalars p) := by
  obtain ⟨i, hi1, hi2⟩ := hi.roundtrip rest
  refine ⟨i, hi1, ?_⟩
  have g1 := hg p.AI1 (by simp) (h1 _ (by simp))
  have g2 := hg p.AO1 (by simp) (h1 _ (by simp))
  have g3 := hg p.S1 (by simp) (h1 _ (by simp))
  have k1 := hg p.T1 (by simp) (h1 _ (by simp))
  have k3 := hg p.T3 (by simp) (h1 _ (by simp))
  have k4 := hg p.T4 (by simp) (h1 _ (by simp))
  have k5 := hg p.T5 (by simp) (h1 _ (by simp))
  have k6 := hg p.T6 (by simp) (h1 _ (by simp))
  have n1 := fromMag_toBytes32 p.tx
  have n2 := fromMag_toBytes32 p.txBlinding
  have n3 := fromMag_toBytes32 p.eBlinding
  have l1 : (toBytes32 p.tx).length = 32 := leB_length _ _
  have l2 : (toBytes32 p.txBlinding).length = 32 := leB_length _ _
  have l3 : (toBytes32 p.eBlinding).length = 32 := leB_length _ _
  -- the points of the second phase
  obtain ⟨mid, k, hk, hmid, hch, hph⟩ : ∃ (mid : List Nat) (k : Nat),
      (if (if onePhase C p then 0 else 1) = 0 then 3 else 6) = k ∧ mid.length = (k - 3) * C.len ∧
      (r1csChunks C p i).flatten = (if onePhase C p then 0 else 1) :: (C.ser p.AI1 ++ C.ser p.AO1 ++ C.ser p.S1 ++ mid
        ++ C.ser p.T1 ++ C.ser p.T3 ++ C.ser p.T4 ++ C.ser p.T5 ++ C.ser p.T6 ++ toBytes32 p.tx
        ++ toBytes32 p.txBlinding ++ toBytes32 p.eBlinding ++ i) ∧
      ∀ pre suf, pre.length = 3 * C.len →
        rdPhase2 C (if onePhase C p then 0 else 1) (pre ++ mid ++ suf) (3 * C.len) = Except.ok p.AI2 ∧
        rdPhase2 C (if onePhase C p then 0 else 1) (pre ++ mid ++ suf) (4 * C.len) = Except.ok p.AO2 ∧
        rdPhase2 C (if onePhase C p then 0 else 1) (pre ++ mid ++ suf) (5 * C.len) = Except.ok p.S2 := by
    by_cases ho : onePhase C p = true
    · refine ⟨[], 3, by simp [ho], by simp, ?_, ?_⟩
      · unfold r1csChunks; simp [ho]
      · intro pre suf _
        unfold onePhase at ho
        simp only [Bool.and_eq_true] at ho
        rw [hinf _ ho.1.1, hinf _ ho.1.2, hinf _ ho.2]
        simp [rdPhase2, onePhase, ho]
    · have ho' : onePhase C p = false := by simpa using ho
      obtain ⟨i1, i2, i3⟩ := h2 ho'
      have m1 := hg p.AI2 (by simp) i1
      have m2 := hg p.AO2 (by simp) i2
      have m3 := hg p.S2 (by simp) i3
      refine ⟨C.ser p.AI2 ++ C.ser p.AO2 ++ C.ser p.S2, 6, by simp [ho], ?_, ?_, ?_⟩
      · simp [m1.1, m2.1, m3.1]; omega
      · unfold r1csChunks; simp [ho]
      · intro pre suf hpre
        have hne : ¬ ((if onePhase C p = true then 0 else 1 : Nat) = 0) := by simp [ho]
        unfold rdPhase2
        rw [if_neg hne, if_neg hne, if_neg hne]
        refine ⟨?_, ?_, ?_⟩
        · exact rdPoint_mid C _ m1 _ pre (C.ser p.AO2 ++ C.ser p.S2 ++ suf) _ (by simp) hpre.symm
        · exact rdPoint_mid C _ m2 _ (pre ++ C.ser p.AI2) (C.ser p.S2 ++ suf) _ (by simp)
            (by simp [hpre, m1.1]; omega)
        · exact rdPoint_mid C _ m3 _ (pre ++ C.ser p.AI2 ++ C.ser p.AO2) suf _ (by simp)
            (by simp [hpre, m1.1, m2.1]; omega)
  have hk3 : k = 3 ∨ k = 6 := by rw [← hk]; split <;> simp
  rw [hch, List.cons_append]
  unfold r1csFromBytes
  simp only [hk]
  generalize (if onePhase C p = true then 0 else 1 : Nat) = version at *
  have hm : ∀ c, (k + c) * C.len = 3 * C.len + mid.length + c * C.len := by
    intro c
    rw [hmid, ← Nat.add_mul, ← Nat.add_mul]
    congr 1
    omega
  have hm0 : k * C.len = 3 * C.len + mid.length := by simpa using hm 0
  generalize toBytes32 p.tx = b1 at *
  generalize toBytes32 p.txBlinding = b2 at *
  generalize toBytes32 p.eBlinding = b3 at *
  generalize hbytes : C.ser p.AI1 ++ C.ser p.AO1 ++ C.ser p.S1 ++ mid
        ++ C.ser p.T1 ++ C.ser p.T3 ++ C.ser p.T4 ++ C.ser p.T5 ++ C.ser p.T6 ++ b1 ++ b2 ++ b3 ++ i ++ rest = bytes
  have hl : bytes.length = (k + 5) * C.len + 96 + (i ++ rest).length := by
    rw [← hbytes, hm]
    simp [g1.1, g2.1, g3.1, k1.1, k3.1, k4.1, k5.1, k6.1, l1, l2, l3]
    omega
  have e1 := rdPoint_mid C p.AI1 g1 bytes [] (C.ser p.AO1 ++ C.ser p.S1 ++ mid
        ++ C.ser p.T1 ++ C.ser p.T3 ++ C.ser p.T4 ++ C.ser p.T5 ++ C.ser p.T6 ++ b1 ++ b2 ++ b3 ++ i ++ rest) 0
      (by rw [← hbytes]; simp) rfl
  have e2 := rdPoint_mid C p.AO1 g2 bytes (C.ser p.AI1) (C.ser p.S1 ++ mid
        ++ C.ser p.T1 ++ C.ser p.T3 ++ C.ser p.T4 ++ C.ser p.T5 ++ C.ser p.T6 ++ b1 ++ b2 ++ b3 ++ i ++ rest) C.len
      (by rw [← hbytes]; simp) g1.1.symm
  have e3 := rdPoint_mid C p.S1 g3 bytes (C.ser p.AI1 ++ C.ser p.AO1) (mid
        ++ C.ser p.T1 ++ C.ser p.T3 ++ C.ser p.T4 ++ C.ser p.T5 ++ C.ser p.T6 ++ b1 ++ b2 ++ b3 ++ i ++ rest)
      (2 * C.len) (by rw [← hbytes]; simp) (by simp [g1.1, g2.1]; omega)
  obtain ⟨p1, p2, p3⟩ := hph (C.ser p.AI1 ++ C.ser p.AO1 ++ C.ser p.S1)
    (C.ser p.T1 ++ C.ser p.T3 ++ C.ser p.T4 ++ C.ser p.T5 ++ C.ser p.T6 ++ b1 ++ b2 ++ b3 ++ i ++ rest)
    (by simp [g1.1, g2.1, g3.1]; omega)
  have hb' : C.ser p.AI1 ++ C.ser p.AO1 ++ C.ser p.S1 ++ mid ++ (C.ser p.T1 ++ C.ser p.T3 ++ C.ser p.T4 ++ C.ser p.T5
      ++ C.ser p.T6 ++ b1 ++ b2 ++ b3 ++ i ++ rest) = bytes := by rw [← hbytes]; simp
  rw [hb'] at p1 p2 p3
  have e4 := rdPoint_mid C p.T1 k1 bytes (C.ser p.AI1 ++ C.ser p.AO1 ++ C.ser p.S1 ++ mid)
      (C.ser p.T3 ++ C.ser p.T4 ++ C.ser p.T5 ++ C.ser p.T6 ++ b1 ++ b2 ++ b3 ++ i ++ rest)
      (k * C.len) (by rw [← hbytes]; simp) (by rw [hm0]; simp [g1.1, g2.1, g3.1]; omega)
  have e5 := rdPoint_mid C p.T3 k3 bytes (C.ser p.AI1 ++ C.ser p.AO1 ++ C.ser p.S1 ++ mid ++ C.ser p.T1)
      (C.ser p.T4 ++ C.ser p.T5 ++ C.ser p.T6 ++ b1 ++ b2 ++ b3 ++ i ++ rest)
      ((k + 1) * C.len) (by rw [← hbytes]; simp) (by rw [hm]; simp [g1.1, g2.1, g3.1, k1.1]; omega)
  have e6 := rdPoint_mid C p.T4 k4 bytes (C.ser p.AI1 ++ C.ser p.AO1 ++ C.ser p.S1 ++ mid ++ C.ser p.T1 ++ C.ser p.T3)
      (C.ser p.T5 ++ C.ser p.T6 ++ b1 ++ b2 ++ b3 ++ i ++ rest)
      ((k + 2) * C.len) (by rw [← hbytes]; simp) (by rw [hm]; simp [g1.1, g2.1, g3.1, k1.1, k3.1]; omega)
  have e7 := rdPoint_mid C p.T5 k5 bytes
      (C.ser p.AI1 ++ C.ser p.AO1 ++ C.ser p.S1 ++ mid ++ C.ser p.T1 ++ C.ser p.T3 ++ C.ser p.T4)
      (C.ser p.T6 ++ b1 ++ b2 ++ b3 ++ i ++ rest)
      ((k + 3) * C.len) (by rw [← hbytes]; simp) (by rw [hm]; simp [g1.1, g2.1, g3.1, k1.1, k3.1, k4.1]; omega)
  have e8 := rdPoint_mid C p.T6 k6 bytes
      (C.ser p.AI1 ++ C.ser p.AO1 ++ C.ser p.S1 ++ mid ++ C.ser p.T1 ++ C.ser p.T3 ++ C.ser p.T4 ++ C.ser p.T5)
      (b1 ++ b2 ++ b3 ++ i ++ rest)
      ((k + 4) * C.len) (by rw [← hbytes]; simp) (by rw [hm]; simp [g1.1, g2.1, g3.1, k1.1, k3.1, k4.1, k5.1]; omega)
  have e9 := rdScalar_mid b1 l1 bytes
      (C.ser p.AI1 ++ C.ser p.AO1 ++ C.ser p.S1 ++ mid ++ C.ser p.T1 ++ C.ser p.T3 ++ C.ser p.T4 ++ C.ser p.T5 ++ C.ser p.T6)
      (b2 ++ b3 ++ i ++ rest)
      ((k + 5) * C.len) (by rw [← hbytes]; simp)
      (by rw [hm]; simp [g1.1, g2.1, g3.1, k1.1, k3.1, k4.1, k5.1, k6.1]; omega)
  have e10 := rdScalar_mid b2 l2 bytes
      (C.ser p.AI1 ++ C.ser p.AO1 ++ C.ser p.S1 ++ mid ++ C.ser p.T1 ++ C.ser p.T3 ++ C.ser p.T4 ++ C.ser p.T5 ++ C.ser p.T6
        ++ b1)
      (b3 ++ i ++ rest)
      ((k + 5) * C.len + 32) (by rw [← hbytes]; simp)
      (by rw [hm]; simp [g1.1, g2.1, g3.1, k1.1, k3.1, k4.1, k5.1, k6.1, l1]; omega)
  have e11 := rdScalar_mid b3 l3 bytes
      (C.ser p.AI1 ++ C.ser p.AO1 ++ C.ser p.S1 ++ mid ++ C.ser p.T1 ++ C.ser p.T3 ++ C.ser p.T4 ++ C.ser p.T5 ++ C.ser p.T6
        ++ b1 ++ b2)
      (i ++ rest)
      ((k + 5) * C.len + 64) (by rw [← hbytes]; simp)
      (by rw [hm]; simp [g1.1, g2.1, g3.1, k1.1, k3.1, k4.1, k5.1, k6.1, l1, l2]; omega)
  have e12 := subspan_mid bytes
      (C.ser p.AI1 ++ C.ser p.AO1 ++ C.ser p.S1 ++ mid ++ C.ser p.T1 ++ C.ser p.T3 ++ C.ser p.T4 ++ C.ser p.T5 ++ C.ser p.T6
        ++ b1 ++ b2 ++ b3)
      (i ++ rest) []
      ((k + 5) * C.len + 96) (bytes.length - ((k + 5) * C.len + 96)) (by rw [← hbytes]; simp)
      (by rw [hm]; simp [g1.1, g2.1, g3.1, k1.1, k3.1, k4.1, k5.1, k6.1, l1, l2, l3]; omega) (by omega)
  rw [if_neg (by omega)]
  simp only [e1, e2, e3, e4, e5, e6, e7, e8, e9, e10, e11, e12, p1, p2, p3, hi2, n1, n2, n3, bind, Except.bind]
  rfl

/-- C116 (i), violated: reading back keeps the blinding factor.  `e_blinding` is not reduced by the prover
    (C115) and is cut to 256 bits: its class modulo the order is kept only when the order divides the
    part cut off (for the order of a 256-bit curve: when that part is zero or a multiple of the order). -/
theorem C116_r1cs_scalar_violated (p : R1cs P) (q : Int) (hq : IsCoprime q 2) :
    ((cutScalars p).eBlinding ≡ p.eBlinding [ZMOD q] ↔ q ∣ p.eBlinding / 256 ^ 32) ∧
    ∀ k : Int, 0 < k → k < q → ∀ r, 0 ≤ r → r < 256 ^ 32 → p.eBlinding = 256 ^ 32 * k + r →
      ¬ (cutScalars p).eBlinding ≡ p.eBlinding [ZMOD q] := by
  have h1 : (cutScalars p).eBlinding ≡ p.eBlinding [ZMOD q] ↔ q ∣ p.eBlinding / 256 ^ 32 := by
    unfold cutScalars
    simp only
    rw [Int.modEq_iff_dvd]
    have e := Int.emod_add_mul_ediv p.eBlinding (256 ^ 32)
    generalize p.eBlinding % 256 ^ 32 = r at *
    generalize p.eBlinding / 256 ^ 32 = k at *
    rw [← e, add_sub_cancel_left]
    have hc : IsCoprime q ((256 : Int) ^ 32) := by
      rw [show (256 : Int) = 2 ^ 8 by norm_num, ← pow_mul]
      exact hq.pow_right
    exact ⟨fun h => hc.dvd_of_dvd_mul_left h, fun h => Dvd.dvd.mul_left h _⟩
  refine ⟨h1, fun k hk0 hkq r hr0 hr1 he => ?_⟩
  rw [h1, he, Int.mul_add_ediv_left _ _ (by positivity), Int.ediv_eq_zero_of_lt hr0 hr1, add_zero]
  intro hd
  have := Int.le_of_dvd hk0 hd
  omega

/-- C116 (j), violated: the bytes of a proof are determined by the proof.  Bytes behind the end are ignored,
    and so is the multiple of the order in the two scalars. -/
theorem C116_unique_violated (C : Codec P) (q : Int) (hq : 0 < q) (hs : (2 * q).natAbs.size < 2 ^ 32) (a b : Int)
    (ha : 0 ≤ a ∧ a < q) (hb : 0 ≤ b ∧ b < q) :
    ∃ x y z, ippFromBytes C q x = .ok ⟨[], [], a, b⟩ ∧ ippFromBytes C q y = .ok ⟨[], [], a, b⟩ ∧
      ippFromBytes C q z = .ok ⟨[], [], a, b⟩ ∧ x ≠ y ∧ x ≠ z ∧ y = x ++ [0] ∧
      ippToBytes C ⟨[], [], a + q, b⟩ = .ok z := by
  have hsq : q.natAbs.size < 2 ^ 32 :=
    Nat.lt_of_le_of_lt (Nat.size_le_size (by omega)) hs
  have h0 := C116_ipp_roundtrip C q ⟨[], [], a, b⟩ [] rfl (by simp) (by simp) ha hb hsq
  have h1 := C116_ipp_roundtrip C q ⟨[], [], a, b⟩ [0] rfl (by simp) (by simp) ha hb hsq
  have h2 := C116_ipp_roundtrip C (2 * q) ⟨[], [], a + q, b⟩ [] rfl (by simp) (by simp) ⟨by simp; omega, by simp; omega⟩
    ⟨hb.1, by simp; omega⟩ hs
  obtain ⟨x, x1, x2⟩ := h0
  obtain ⟨x', x1', y2⟩ := h1
  obtain ⟨z, z1, z2⟩ := h2
  have : x' = x := by rw [x1] at x1'; injection x1' with h; exact h.symm
  subst this
  rw [List.append_nil] at x2 z2
  -- reading modulo q after reading modulo 2q
  have z3 : ippFromBytes C q z = .ok ⟨[], [], a, b⟩ := by
    have key : ∀ (u : List Nat) (r : Ipp P), ippFromBytes C (2 * q) u = .ok r →
        ippFromBytes C q u = .ok ⟨r.L, r.R, r.a % q, r.b % q⟩ := by
      intro u r hu
      unfold ippFromBytes at hu ⊢
      split at hu
      · simp at hu
      · rename_i hlt
        rw [if_neg hlt]
        cases hv : view u 0 4 with
        | error e => simp [hv, bind, Except.bind] at hu
        | ok h =>
          simp only [hv, bind, Except.bind] at hu ⊢
          split at hu
          · simp at hu
          · rename_i hlg
            rw [if_neg hlg]
            cases hp : rdPairs C u (Nat.ofDigits 256 h) 4 with
            | error e => simp [hp] at hu
            | ok t =>
              simp only [hp] at hu ⊢
              cases hfa : rdField u t.2.2 with
              | error e => simp [hfa] at hu
              | ok fa =>
                simp only [hfa] at hu ⊢
                cases hfb : rdField u fa.2 with
                | error e => simp [hfb] at hu
                | ok fb =>
                  simp only [hfb] at hu ⊢
                  injection hu with hu
                  subst hu
                  simp only [Int.emod_emod_of_dvd _ (Dvd.intro_left 2 rfl)]
    have := key z _ z2
    rw [this]
    simp only [Int.add_emod_right, Int.emod_eq_of_lt ha.1 ha.2, Int.emod_eq_of_lt hb.1 hb.2]
  refine ⟨x', x' ++ [0], z, x2, y2, z3, by simp, ?_, rfl, z1⟩
  intro hxz
  rw [← hxz] at z2
  -- the bytes of `a` and of `a + q` differ
  have w := C116_ipp_roundtrip C (2 * q) ⟨[], [], a, b⟩ [] rfl (by simp) (by simp) ⟨ha.1, by simp; omega⟩
    ⟨hb.1, by simp; omega⟩ hs
  obtain ⟨x'', w1, w2⟩ := w
  rw [x1] at w1
  injection w1 with w1
  rw [← w1, List.append_nil, z2] at w2
  simp at w2
  omega

/-! ### a concrete case -/

/-- A group with two-byte points. -/
def toyCodec : Codec Nat where
  ser n := [n / 256, n % 256]
  des b := match b with | [x, y] => some (x * 256 + y) | _ => none
  len := 2
  inf n := n == 0
  zero := 0

theorem toy_good (n : Nat) : Good toyCodec n := by
  refine ⟨rfl, ?_⟩
  simp only [toyCodec]
  congr 1
  omega

def toyIpp : Ipp Nat := ⟨[513, 3], [4, 1027], 12345, 999⟩

theorem toy_goodIpp : GoodIpp toyCodec 65537 toyIpp :=
  ⟨rfl, by decide, fun x _ => toy_good x, by decide, by decide, by decide +kernel, by decide⟩

/-- The hypotheses of (b), (e) are met, and the functions run. -/
example : ∃ bytes, rangeToBytes toyCodec 7 ⟨1, 2, 3, 4, 5, 6, 7, toyIpp⟩ = .ok bytes ∧
    rangeFromBytes toyCodec 65537 (bytes ++ [1, 2]) = .ok ⟨1, 2, 3, 4, 5, 6, 7, toyIpp⟩ :=
  C116_range_roundtrip toyCodec 65537 7 _ [1, 2] (toy_good _) (toy_good _) (toy_good _) (toy_good _)
    (by norm_num) (by norm_num) (by norm_num) toy_goodIpp

def toyR1cs (e : Int) : R1cs Nat := ⟨1, 2, 3, 0, 0, 0, 4, 5, 6, 7, 8, 9, 10, e, toyIpp⟩

example : ∃ i, ippToBytes toyCodec toyIpp = .ok i ∧
    r1csFromBytes toyCodec 65537 ((r1csChunks toyCodec (toyR1cs (2 ^ 256 + 5)) i).flatten ++ []) = .ok (toyR1cs 5) :=
  C116_r1cs_read toyCodec 65537 (toyR1cs (2 ^ 256 + 5)) [] (fun x _ _ => toy_good x) (by decide)
    (by intro h; exact absurd h (by decide)) (fun x hx => by simpa [toyCodec] using hx) toy_goodIpp

/-- Here 35 bytes are needed where 64 are set aside: an exception. -/
example : r1csToBytes toyCodec 0 (toyR1cs 5) = .error .exn :=
  (C116_r1cs_write toyCodec 0 (toyR1cs 5) (fun x _ => (toy_good x).1) rfl).2.1 (by decide +kernel)

/-- Scalars of a 256-bit group: written behind the end of the buffer. -/
example : r1csToBytes toyCodec 0 ⟨1, 2, 3, 0, 0, 0, 4, 5, 6, 7, 8, 9, 10, 11, ⟨[513], [4], 2 ^ 250 + 3, 2 ^ 251 + 1⟩⟩
    = .error .oob :=
  C116_r1cs_write_violated toyCodec 0 _ (fun x _ => (toy_good x).1) rfl (by norm_num) (by norm_num)

example : ippFromBytes toyCodec 65537 [5, 0, 0, 0, 1, 0, 0] = .error .exn := by decide +kernel
example : ippFromBytes toyCodec 65537 [0, 0, 0, 0, 1, 0, 0, 0, 7, 255, 255, 255, 255, 1] = .error .exn := by decide +kernel

end Yacl.Bp.Bytes
