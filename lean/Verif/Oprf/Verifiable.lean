import Verif.Oprf.Props
import Mathlib.Tactic.Module

/-! The verifiable OPRF (C94): honest proofs are accepted and give the pseudo random function; a wrong evaluation is
accepted for at most one challenge. -/
namespace Yacl.Oprf
open Vss (invertMod invertMod_cases)

variable {G : Type} [AddCommGroup G] {q : ℕ}

/-! ### Specification -/

/-- `Σ dᵢ • Pᵢ`. -/
def combine (ds : List Int) (ps : List G) : G := (List.zipWith (fun d P => d • P) ds ps).sum

/-- The weights of a batch: the scalar hash of `len(seed) seed I2OSP(i) len(Cᵢ) Cᵢ len(Dᵢ) Dᵢ "Composite"`. -/
def weight (X : Ctx G) (pk : G) (i : Nat) (c d : G) : Int :=
  let seed := X.hash (be16 (X.ser pk).length ++ X.ser pk ++
    be16 (lit "Seed-" ++ X.ctxStr).length ++ (lit "Seed-" ++ X.ctxStr))
  X.hashToScalar (be16 seed.length ++ seed ++ be16 i ++ be16 (X.ser c).length ++ X.ser c ++
    be16 (X.ser d).length ++ X.ser d ++ lit "Composite")

/-- The weights of the elements from index `i` on. -/
def weights (X : Ctx G) (pk : G) : Nat → List (G × G) → List Int
  | _, [] => []
  | i, (c, d) :: t => weight X pk i c d :: weights X pk (i + 1) t

/-- The scalar hash of the five framed points and "Challenge". -/
def challenge (X : Ctx G) (pk m z t2 t3 : G) : Int :=
  X.hashToScalar ((([pk, m, z, t2, t3].map fun P => be16 (X.ser P).length ++ X.ser P).flatten) ++ lit "Challenge")

/-- The sizes the 16-bit length fields can hold. -/
structure Small (X : Ctx G) : Prop where
  ser : ∀ P, (X.ser P).length < 65536
  hash : ∀ b, (X.hash b).length < 65536
  ctx : X.ctxStr.length < 65531

/-! ### Lemmas -/

theorem lit_seed_length : (lit "Seed-").length = 5 := by decide

theorem seedOf_eq {X : Ctx G} (hs : Small X) (pk : G) :
    seedOf X pk = some (X.hash (be16 (X.ser pk).length ++ X.ser pk ++
      be16 (lit "Seed-" ++ X.ctxStr).length ++ (lit "Seed-" ++ X.ctxStr))) := by
  unfold seedOf
  have h2 : (lit "Seed-" ++ X.ctxStr).length < 65536 := by
    rw [List.length_append, lit_seed_length]; have := hs.ctx; omega
  rw [frame_eq, frame_eq, if_pos (hs.ser pk), if_pos h2]
  simp

theorem compositeInput_eq {X : Ctx G} (hs : Small X) (b : Bytes) (i : Nat) (hi : i < 65536) (c d : G) :
    compositeInput X (X.hash b) i c d =
      some (be16 (X.hash b).length ++ X.hash b ++ be16 i ++ be16 (X.ser c).length ++ X.ser c ++
        be16 (X.ser d).length ++ X.ser d ++ lit "Composite") := by
  unfold compositeInput
  rw [frame_eq, frame_eq, frame_eq, i2osp_two, if_pos (hs.hash b), if_pos hi, if_pos (hs.ser c), if_pos (hs.ser d)]
  simp

theorem compositeInput_none {X : Ctx G} (s : Bytes) (i : Nat) (hi : ¬ i < 65536) (c d : G) :
    compositeInput X s i c d = none := by
  unfold compositeInput
  rw [i2osp_two, if_neg hi]
  cases frame s <;> rfl

theorem challengeInput_eq {X : Ctx G} (hs : Small X) (pk m z t2 t3 : G) :
    (challengeInput X pk m z t2 t3).map X.hashToScalar = some (challenge X pk m z t2 t3) := by
  unfold challengeInput challenge
  simp only [frame_eq, hs.ser, if_true]
  simp

theorem challengeInput_some {X : Ctx G} (hs : Small X) (pk m z t2 t3 : G) :
    ∃ t, challengeInput X pk m z t2 t3 = some t ∧ X.hashToScalar t = challenge X pk m z t2 t3 := by
  have h := challengeInput_eq hs pk m z t2 t3
  cases ht : challengeInput X pk m z t2 t3 with
  | none => rw [ht] at h; simp at h
  | some t => rw [ht] at h; exact ⟨t, rfl, by simpa using h⟩

theorem combine_cons (d : Int) (ds : List Int) (P : G) (ps : List G) :
    combine (d :: ds) (P :: ps) = d • P + combine ds ps := by simp [combine]

theorem compLoop_eq {X : Ctx G} (hs : Small X) (pk : G) (cds : List (G × G)) : ∀ (i : Nat) (m z : G),
    i + cds.length ≤ 65536 →
    compLoop X (X.hash (be16 (X.ser pk).length ++ X.ser pk ++
      be16 (lit "Seed-" ++ X.ctxStr).length ++ (lit "Seed-" ++ X.ctxStr))) i cds (m, z) =
      some (m + combine (weights X pk i cds) (cds.map Prod.fst), z + combine (weights X pk i cds) (cds.map Prod.snd)) := by
  induction cds with
  | nil => intro i m z _; simp [compLoop, combine]
  | cons cd t ih =>
    intro i m z hi
    obtain ⟨c, d⟩ := cd
    simp only [List.length_cons] at hi
    simp only [compLoop]
    rw [compositeInput_eq hs _ i (by omega)]
    simp only [Option.bind_eq_bind, Option.bind_some]
    rw [ih (i + 1) _ _ (by omega)]
    simp only [weights, List.map_cons, combine_cons, add_assoc]
    rfl

theorem fastLoop_eq {X : Ctx G} (seed : Bytes) (cds : List (G × G)) : ∀ (i : Nat) (m z : G),
    fastLoop X seed i cds m = (compLoop X seed i cds (m, z)).map Prod.fst := by
  induction cds with
  | nil => intro i m z; rfl
  | cons cd t ih =>
    intro i m z
    obtain ⟨c, d⟩ := cd
    simp only [compLoop, fastLoop]
    cases compositeInput X seed i c d with
    | none => rfl
    | some t => exact ih _ _ _

theorem weights_length (X : Ctx G) (pk : G) (cds : List (G × G)) : ∀ i, (weights X pk i cds).length = cds.length := by
  induction cds with
  | nil => intro i; rfl
  | cons cd t ih => intro i; simp [weights, ih]

theorem compLoop_big {X : Ctx G} (seed : Bytes) (cds : List (G × G)) : ∀ (i : Nat) (mz : G × G),
    65536 < i + cds.length → i ≤ 65536 → compLoop X seed i cds mz = none := by
  induction cds with
  | nil => intro i mz h1 h2; simp at h1; omega
  | cons cd t ih =>
    intro i mz h1 h2
    obtain ⟨c, d⟩ := cd
    obtain ⟨m, z⟩ := mz
    simp only [compLoop]
    by_cases hi : i < 65536
    · cases compositeInput X seed i c d with
      | none => rfl
      | some u => exact ih (i + 1) _ (by simp only [List.length_cons] at h1; omega) (by omega)
    · rw [compositeInput_none _ _ hi]; rfl

theorem combine_smul (k : Int) (ds : List Int) (ps : List G) :
    combine ds (ps.map (k • ·)) = k • combine ds ps := by
  induction ds generalizing ps with
  | nil => simp [combine]
  | cons d ds ih =>
    cases ps with
    | nil => simp [combine]
    | cons P ps =>
      rw [List.map_cons, combine_cons, combine_cons, ih, smul_add, smul_comm]

/-! ### C94 -/

/-- C94: the composites the client computes are the weighted sums of both element lists with the weights of the
specification; batches of more than 65536 elements throw. -/
theorem C94_composites {X : Ctx G} (hs : Small X) (pk : G) (bs es : List G) :
    composites X pk bs es =
      if bs.length = es.length ∧ bs.length ≤ 65536 then
        some (combine (weights X pk 0 (bs.zip es)) bs, combine (weights X pk 0 (bs.zip es)) es)
      else none := by
  unfold composites
  rw [seedOf_eq hs]
  by_cases hl : bs.length = es.length
  · rw [if_pos hl]
    have hz : (bs.zip es).length = bs.length := by simp [hl]
    by_cases hb : bs.length ≤ 65536
    · rw [if_pos ⟨hl, hb⟩]
      simp only [Option.bind_eq_bind, Option.bind_some]
      rw [compLoop_eq hs pk _ 0 _ _ (by omega)]
      rw [List.map_fst_zip (by omega), List.map_snd_zip (by omega)]
      simp
    · rw [if_neg (fun h => hb h.2)]
      simp only [Option.bind_eq_bind, Option.bind_some]
      exact compLoop_big _ _ _ _ (by omega) (by omega)
  · rw [if_neg hl, if_neg (fun h => hl h.1)]

/-- C94: the verdict of `VerifyProof`: the challenge of the proof is the hash of the public key, the composites and the
two recomputed announcements. -/
theorem C94_verify_iff {X : Ctx G} (hs : Small X) (pk : G) (bs es : List G) (p : Proof) :
    verifyProof X pk bs es p = some true ↔
      bs.length = es.length ∧ bs.length ≤ 65536 ∧
      ∃ m z, m = combine (weights X pk 0 (bs.zip es)) bs ∧ z = combine (weights X pk 0 (bs.zip es)) es ∧
        p.c = challenge X pk m z (p.s • X.gen + p.c • pk) (p.s • m + p.c • z) := by
  unfold verifyProof
  rw [C94_composites hs]
  by_cases h : bs.length = es.length ∧ bs.length ≤ 65536
  · rw [if_pos h]
    simp only [Option.bind_eq_bind, Option.bind_some]
    obtain ⟨t, ht, htc⟩ := challengeInput_some hs pk (combine (weights X pk 0 (bs.zip es)) bs)
      (combine (weights X pk 0 (bs.zip es)) es) (p.s • X.gen + p.c • pk)
      (p.s • combine (weights X pk 0 (bs.zip es)) bs + p.c • combine (weights X pk 0 (bs.zip es)) es)
    rw [ht]
    simp only [Option.bind_some, htc]
    simp only [Option.pure_def, Option.some.injEq, decide_eq_true_eq, sub_eq_zero]
    constructor
    · intro h1; exact ⟨h.1, h.2, _, _, rfl, rfl, h1⟩
    · rintro ⟨-, -, m, z, rfl, rfl, h1⟩; exact h1
  · rw [if_neg h]
    simp only [Option.bind_eq_bind, Option.bind_none]
    constructor
    · intro h'; cases h'
    · rintro ⟨h1, h2, -⟩; exact absurd ⟨h1, h2⟩ h

/-- C94, completeness: for every key, batch of at most 65536 elements and nonce, the server's proof of its own
evaluations exists and the client accepts it. -/
theorem C94_complete {X : Ctx G} (hX : X.order = q) (hq : ∀ P : G, (q : Int) • P = 0) (hs : Small X)
    (sk : Int) (bs : List G) (hn : bs.length ≤ 65536) (randomness draw : Int) :
    ∃ p, generateProof X sk (sk • X.gen) bs (bs.map (sk • ·)) randomness draw = some p ∧
      verifyProof X (sk • X.gen) bs (bs.map (sk • ·)) p = some true := by
  set pk := sk • X.gen with hpk
  set es := bs.map (sk • ·) with hes
  have hl : bs.length = es.length := by simp [hes]
  set m := combine (weights X pk 0 (bs.zip es)) bs with hm
  have hz : combine (weights X pk 0 (bs.zip es)) es = sk • m := by rw [hes, combine_smul]
  have hcf : compositesFast X sk pk bs es = some (m, sk • m) := by
    have h1 := C94_composites hs pk bs es
    rw [if_pos ⟨hl, hn⟩] at h1
    unfold composites at h1
    unfold compositesFast
    rw [if_pos hl] at h1 ⊢
    rw [seedOf_eq hs] at h1 ⊢
    simp only [Option.bind_eq_bind, Option.bind_some] at h1 ⊢
    rw [fastLoop_eq _ _ _ _ (X.gen - X.gen), h1]
    rfl
  set r := if randomness = 0 then draw else randomness with hr
  obtain ⟨t, ht, htc⟩ := challengeInput_some hs pk m (sk • m) (r • X.gen) (r • m)
  refine ⟨⟨X.hashToScalar t, (r - X.hashToScalar t * sk) % X.order⟩, ?_, ?_⟩
  · unfold generateProof
    rw [hcf]
    simp only [Option.bind_eq_bind, Option.bind_some]
    rw [← hr, ht]
    rfl
  · rw [C94_verify_iff hs]
    refine ⟨hl, hn, m, sk • m, hm, hz.symm, ?_⟩
    simp only []
    have hann : ∀ P : G, ((r - X.hashToScalar t * sk) % X.order) • P + X.hashToScalar t • sk • P = r • P := by
      intro P
      rw [hX, smul_congr hq (a := (r - X.hashToScalar t * sk) % q) (b := r - X.hashToScalar t * sk)
        (by rw [ZMod.intCast_eq_intCast_iff]; exact Int.mod_modEq _ _), smul_smul, ← add_smul]
      congr 1; ring
    rw [hpk, hann, hann, ← hpk]
    exact htc

/-- C94: a run of the protocol with an honest server gives the pseudo random function, for every blind that is not a
multiple of the order. -/
theorem C94_output [Fact q.Prime] {X : Ctx G} (hX : X.order = q) (hq : ∀ P : G, (q : Int) • P = 0) (hs : Small X)
    (sk b : Int) (hb : ¬ (q : Int) ∣ b) (input : Bytes) (randomness draw : Int) :
    ∃ e p, vBlindEvaluate X sk (sk • X.gen) (blind X ⟨b, 0⟩ input) randomness draw = some (e, p) ∧
      (vFinalize X (sk • X.gen) ⟨b, 0⟩ e (blind X ⟨b, 0⟩ input) p input).1 = prf X sk input := by
  obtain ⟨p, hp, hv⟩ := C94_complete hX hq hs sk [blind X ⟨b, 0⟩ input] (by simp) randomness draw
  simp only [List.map_cons, List.map_nil] at hp hv
  refine ⟨sk • blind X ⟨b, 0⟩ input, p, ?_, ?_⟩
  · unfold vBlindEvaluate; rw [hp]; rfl
  · unfold vFinalize
    rw [hv]
    have h := evaluate_eq hX hq sk ⟨b, 0⟩ input (Or.inl rfl)
    rw [if_neg hb] at h
    exact h

/-- C94: nothing is returned, and the client is unchanged, when the proof is not accepted. -/
theorem C94_reject {X : Ctx G} (pk : G) (c : Client) (e b : G) (p : Proof) (input : Bytes)
    (h : verifyProof X pk [b] [e] p ≠ some true) : vFinalize X pk c e b p input = (none, c) := by
  unfold vFinalize
  split
  · contradiction
  · rfl

/-- C94, soundness: let the public key be `k • gen`.  For announcements `t2, t3` and composites with `z ≠ k • m`, at most
one challenge has an answer that the verifier's equations accept. -/
theorem C94_one_challenge [Fact q.Prime] {X : Ctx G} (hq : ∀ P : G, (q : Int) • P = 0) (hg : X.gen ≠ 0)
    {k : Int} {m z t2 t3 : G} (hz : z ≠ k • m) {p p' : Proof}
    (h2 : p.s • X.gen + p.c • k • X.gen = t2) (h3 : p.s • m + p.c • z = t3)
    (h2' : p'.s • X.gen + p'.c • k • X.gen = t2) (h3' : p'.s • m + p'.c • z = t3) :
    (p.c : ZMod q) = p'.c := by
  have e1 : ((p.s - p'.s) + (p.c - p'.c) * k) • X.gen = 0 := by
    have := h2.trans h2'.symm
    rw [← sub_eq_zero] at this
    rw [← this]; module
  rw [smul_eq_zero_iff hq hg] at e1
  have e2 : (p.c - p'.c) • (z - k • m) = 0 := by
    have h := h3.trans h3'.symm
    rw [← sub_eq_zero] at h
    have h5 : ((p.s - p'.s) + (p.c - p'.c) * k) • m = 0 := by
      have := smul_congr hq (a := (p.s - p'.s) + (p.c - p'.c) * k) (b := 0) (by rw [e1]; simp) m
      rwa [zero_smul] at this
    have : (p.c - p'.c) • (z - k • m) =
        (p.s • m + p.c • z - (p'.s • m + p'.c • z)) - ((p.s - p'.s) + (p.c - p'.c) * k) • m := by module
    rw [this, h, h5, sub_zero]
  rw [smul_eq_zero_iff hq (sub_ne_zero.2 hz)] at e2
  push_cast at e2
  exact sub_eq_zero.1 e2

/-- C94, soundness of a single evaluation.  Two accepted proofs of the same pair under the same public key with the same
announcements and different challenges (a rewound prover: `X'` answers the challenge query differently and the weight
query alike) exist only for the evaluation `k • b`, when the weight of the pair is not zero. -/
theorem C94_sound [Fact q.Prime] {X : Ctx G} (hq : ∀ P : G, (q : Int) • P = 0) (hg : X.gen ≠ 0) (hs : Small X)
    (h' : Bytes → Int) {k : Int} {b e : G} {p p' : Proof}
    (hv : verifyProof X (k • X.gen) [b] [e] p = some true)
    (hv' : verifyProof { X with hashToScalar := h' } (k • X.gen) [b] [e] p' = some true)
    (hw : weight { X with hashToScalar := h' } (k • X.gen) 0 b e = weight X (k • X.gen) 0 b e)
    (hw0 : ¬ (q : Int) ∣ weight X (k • X.gen) 0 b e)
    (ht2 : p.s • X.gen + p.c • k • X.gen = p'.s • X.gen + p'.c • k • X.gen)
    (ht3 : p.s • weight X (k • X.gen) 0 b e • b + p.c • weight X (k • X.gen) 0 b e • e =
      p'.s • weight X (k • X.gen) 0 b e • b + p'.c • weight X (k • X.gen) 0 b e • e)
    (hc : (p.c : ZMod q) ≠ p'.c) :
    e = k • b ∧
      p.c = challenge X (k • X.gen) (weight X (k • X.gen) 0 b e • b) (weight X (k • X.gen) 0 b e • e)
        (p.s • X.gen + p.c • k • X.gen)
        (p.s • weight X (k • X.gen) 0 b e • b + p.c • weight X (k • X.gen) 0 b e • e) ∧
      p'.c = challenge { X with hashToScalar := h' } (k • X.gen) (weight X (k • X.gen) 0 b e • b)
        (weight X (k • X.gen) 0 b e • e) (p.s • X.gen + p.c • k • X.gen)
        (p.s • weight X (k • X.gen) 0 b e • b + p.c • weight X (k • X.gen) 0 b e • e) := by
  have hs' : Small { X with hashToScalar := h' } := ⟨hs.ser, hs.hash, hs.ctx⟩
  rw [C94_verify_iff hs] at hv
  rw [C94_verify_iff hs'] at hv'
  obtain ⟨-, -, m, z, hm, hz, hv⟩ := hv
  obtain ⟨-, -, m', z', hm', hz', hv'⟩ := hv'
  simp only [List.zip_cons_cons, List.zip_nil_left, weights, combine, List.zipWith_cons_cons, List.zipWith_nil_left,
    List.sum_cons, List.sum_nil, add_zero, hw] at hm hz hm' hz'
  subst hm hz hm' hz'
  refine ⟨?_, hv, ?_⟩
  · by_contra hne
    apply hc
    refine C94_one_challenge hq hg (m := weight X (k • X.gen) 0 b e • b) (z := weight X (k • X.gen) 0 b e • e) (k := k)
      ?_ ht2 ht3 rfl rfl
    intro h
    apply hne
    have h1 : weight X (k • X.gen) 0 b e • (e - k • b) = 0 := by
      rw [smul_sub, h, smul_comm, sub_self]
    by_contra hne2
    rw [smul_eq_zero_iff hq (sub_ne_zero.2 hne2), ZMod.intCast_zmod_eq_zero_iff_dvd] at h1
    exact hw0 h1
  · rw [ht2, ht3]; exact hv'

/-- C94: in a batch with a wrong evaluation at position `j`, whatever the other weights, at most one value modulo the
order of the weight at `j` makes the composites look right. -/
theorem C94_weights [Fact q.Prime] (hq : ∀ P : G, (q : Int) • P = 0) (k : Int) (bs es : List G)
    (hl : bs.length = es.length) (ds ds' : List Int) (hd : ds.length = bs.length) (hd' : ds'.length = bs.length) (j : Nat)
    (hj : j < bs.length) (hbad : es[j]'(hl ▸ hj) ≠ k • bs[j])
    (hother : ∀ i (h : i < bs.length), i ≠ j → ds[i]'(hd ▸ h) = ds'[i]'(hd' ▸ h))
    (hz : combine ds es = k • combine ds bs) (hz' : combine ds' es = k • combine ds' bs) :
    ((ds[j]'(hd ▸ hj) : Int) : ZMod q) = (ds'[j]'(hd' ▸ hj) : Int) := by
  have key : ∀ (bs es : List G) (ds ds' : List Int) (j : Nat) (hl : bs.length = es.length)
      (hd : ds.length = bs.length) (hd' : ds'.length = bs.length) (hj : j < bs.length),
      (∀ i (h : i < bs.length), i ≠ j → ds[i]'(hd ▸ h) = ds'[i]'(hd' ▸ h)) →
      (combine ds es - k • combine ds bs) - (combine ds' es - k • combine ds' bs) =
        (ds[j]'(hd ▸ hj) - ds'[j]'(hd' ▸ hj)) • (es[j]'(hl ▸ hj) - k • bs[j]) := by
    intro bs
    induction bs with
    | nil => intro es ds ds' j _ _ _ hj; simp at hj
    | cons P bs ih =>
      intro es ds ds' j hl hd hd' hj ho
      cases es with
      | nil => simp at hl
      | cons Q es =>
        cases ds with
        | nil => simp at hd
        | cons d ds =>
          cases ds' with
          | nil => simp at hd'
          | cons d' ds' =>
            simp only [List.length_cons, Nat.add_right_cancel_iff] at hl hd hd'
            cases j with
            | zero =>
              have hds : ds = ds' := by
                apply List.ext_getElem (by omega)
                intro i h1 h2
                have := ho (i + 1) (by simp; omega) (by omega)
                simpa using this
              subst hds
              simp only [combine_cons, List.getElem_cons_zero]
              module
            | succ j =>
              have h0 := ho 0 (by simp) (by omega)
              simp only [List.getElem_cons_zero] at h0
              subst h0
              have := ih es ds ds' j hl hd (by simpa using hd') (by simpa using hj) (fun i h hij => by
                have := ho (i + 1) (by simpa using h) (by omega)
                simpa using this)
              simp only [combine_cons, List.getElem_cons_succ]
              rw [← this]
              module
  have h := key bs es ds ds' j hl hd hd' hj hother
  rw [hz, hz', sub_self, sub_self, sub_zero] at h
  have h := h.symm
  rw [smul_eq_zero_iff hq (sub_ne_zero.2 hbad)] at h
  push_cast at h
  exact sub_eq_zero.1 h

/-- C94: adding the order to the answer of an accepted proof gives another accepted proof. -/
theorem C94_malleable {X : Ctx G} (hq : ∀ P : G, (q : Int) • P = 0) (hs : Small X) (pk : G) (bs es : List G) (p : Proof)
    (h : verifyProof X pk bs es p = some true) : verifyProof X pk bs es ⟨p.c, p.s + q⟩ = some true := by
  rw [C94_verify_iff hs] at h ⊢
  obtain ⟨h1, h2, m, z, hm, hz, h3⟩ := h
  refine ⟨h1, h2, m, z, hm, hz, ?_⟩
  simpa only [add_smul, hq, add_zero] using h3

/-- C94: challenges out of the range of the scalar hash are rejected. -/
theorem C94_range {X : Ctx G} (hs : Small X) (hr : ∀ b, 0 ≤ X.hashToScalar b ∧ X.hashToScalar b < X.order)
    (pk : G) (bs es : List G) (p : Proof) (h : verifyProof X pk bs es p = some true) : 0 ≤ p.c ∧ p.c < X.order := by
  rw [C94_verify_iff hs] at h
  obtain ⟨-, -, m, z, -, -, h⟩ := h
  rw [h]
  exact hr _

/-- C94: the challenge transcript determines the serialised points it is made of. -/
theorem C94_framing {X : Ctx G} (hser : Function.Injective X.ser) {pk m z t2 t3 pk' m' z' t2' t3' : G} {t : Bytes}
    (h : challengeInput X pk m z t2 t3 = some t) (h' : challengeInput X pk' m' z' t2' t3' = some t) :
    pk = pk' ∧ m = m' ∧ z = z' ∧ t2 = t2' ∧ t3 = t3' := by
  unfold challengeInput at h h'
  simp only [Option.bind_eq_bind, Option.bind_eq_some_iff, Option.pure_def, Option.some.injEq] at h h'
  obtain ⟨a, ha, b, hb, c, hc, d, hd, e, he, rfl⟩ := h
  obtain ⟨a', ha', b', hb', c', hc', d', hd', e', he', h'⟩ := h'
  obtain ⟨la, rfl⟩ := frame_some ha
  obtain ⟨lb, rfl⟩ := frame_some hb
  obtain ⟨lc, rfl⟩ := frame_some hc
  obtain ⟨ld, rfl⟩ := frame_some hd
  obtain ⟨le, rfl⟩ := frame_some he
  obtain ⟨la', rfl⟩ := frame_some ha'
  obtain ⟨lb', rfl⟩ := frame_some hb'
  obtain ⟨lc', rfl⟩ := frame_some hc'
  obtain ⟨ld', rfl⟩ := frame_some hd'
  obtain ⟨le', rfl⟩ := frame_some he'
  simp only [List.append_assoc] at h'
  have h1 := frame_append_inj la' la (by simpa only [List.append_assoc] using h')
  have h2 := frame_append_inj lb' lb (by simpa only [List.append_assoc] using h1.2)
  have h3 := frame_append_inj lc' lc (by simpa only [List.append_assoc] using h2.2)
  have h4 := frame_append_inj ld' ld (by simpa only [List.append_assoc] using h3.2)
  have h5 := frame_append_inj le' le (by simpa only [List.append_assoc] using h4.2)
  exact ⟨hser h1.1.symm, hser h2.1.symm, hser h3.1.symm, hser h4.1.symm, hser h5.1.symm⟩

end Yacl.Oprf
