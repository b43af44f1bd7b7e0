import Verif.Oprf.Model
import Mathlib.Algebra.Module.ZMod
import Mathlib.Tactic.ByContra

/-! The OPRF client (C93): the output is the server's function of the input, the blinded element says nothing about the
input, and the byte strings that are hashed determine their parts. -/
namespace Yacl.Oprf
open Vss (invertMod invertMod_cases)

variable {G : Type} [AddCommGroup G]

/-! ### Specification -/

/-- The 16-bit big-endian encoding of a number. -/
def be16 (n : Nat) : Bytes := [BitVec.ofNat 8 (n / 256), BitVec.ofNat 8 n]

/-- RFC 9497, section 3.3.1: the pseudo random function of the key `sk`,
`Hash(I2OSP(len(input), 2) || input || I2OSP(len(e), 2) || e || "Finalize")` with `e` the serialisation of
`sk * HashToGroup(input)`; both lengths must be encodable. -/
def prf (X : Ctx G) (sk : Int) (input : Bytes) : Option Bytes :=
  let e := X.ser (sk • X.hashToGroup input)
  if input.length < 65536 ∧ e.length < 65536 then
    some (X.hash (be16 input.length ++ input ++ be16 e.length ++ e ++ lit "Finalize"))
  else none

/-- Between a `Finalize` and any later `RefreshBlind` there is a `ClearBlind`. -/
def ClearsBeforeRefresh (ops : List (Op G)) : Prop :=
  ∀ pre mid post e input r, ops = pre ++ Op.finalize e input :: (mid ++ Op.refresh r :: post) → Op.clear ∈ mid

/-! ### Lemmas -/

theorem i2osp_two (x : Nat) : i2osp x 2 = if x < 65536 then some (be16 x) else none := by
  unfold i2osp
  norm_num
  split
  · simp [leBytes, be16]
  · rfl

theorem i2osp_one (x : Nat) : i2osp x 1 = if x < 256 then some [BitVec.ofNat 8 x] else none := by
  unfold i2osp
  norm_num
  split
  · simp [leBytes]
  · rfl

theorem frame_eq (b : Bytes) : frame b = if b.length < 65536 then some (be16 b.length ++ b) else none := by
  unfold frame
  rw [i2osp_two]
  split <;> simp

theorem frame_some {b x : Bytes} (h : frame b = some x) : b.length < 65536 ∧ x = be16 b.length ++ b := by
  rw [frame_eq] at h
  split at h
  · exact ⟨‹_›, (Option.some.inj h).symm⟩
  · simp at h

theorem be16_inj {a b : Nat} (ha : a < 65536) (hb : b < 65536) (h : be16 a = be16 b) : a = b := by
  simp only [be16, List.cons.injEq, and_true] at h
  have h1 := congrArg BitVec.toNat h.1
  have h2 := congrArg BitVec.toNat h.2
  simp only [BitVec.toNat_ofNat] at h1 h2
  omega

theorem frame_append_inj {a b s t : Bytes} (ha : a.length < 65536) (hb : b.length < 65536)
    (h : be16 a.length ++ a ++ s = be16 b.length ++ b ++ t) : a = b ∧ s = t := by
  rw [List.append_assoc, List.append_assoc] at h
  have h1 := List.append_inj h (by simp [be16])
  have hl := be16_inj ha hb h1.1
  exact List.append_inj h1.2 hl

theorem finalizeInput_eq (i p : Bytes) : finalizeInput i p =
    if i.length < 65536 ∧ p.length < 65536 then
      some (be16 i.length ++ i ++ be16 p.length ++ p ++ lit "Finalize") else none := by
  unfold finalizeInput
  rw [frame_eq, frame_eq]
  by_cases h1 : i.length < 65536
  · by_cases h2 : p.length < 65536
    · rw [if_pos ⟨by omega, by omega⟩, if_pos h1, if_pos h2, if_pos ⟨h1, h2⟩]
      simp
    · have hn : ¬ (i.length < 65536 ∧ p.length < 65536) := fun h => h2 h.2
      rw [if_neg h2, if_neg hn, if_pos h1]
      split <;> rfl
  · have hn : ¬ (i.length < 65536 ∧ p.length < 65536) := fun h => h1 h.1
    rw [if_neg h1, if_neg hn]
    split <;> rfl

section
variable {q : ℕ}

theorem smul_congr (hq : ∀ P : G, (q : Int) • P = 0) {a b : Int} (h : (a : ZMod q) = b) (P : G) : a • P = b • P := by
  rw [ZMod.intCast_eq_intCast_iff_dvd_sub] at h
  obtain ⟨k, hk⟩ := h
  have : b = a + k * q := by linarith
  rw [this, add_smul, mul_smul, hq, smul_zero, add_zero]

theorem smul_eq_zero_iff [Fact q.Prime] (hq : ∀ P : G, (q : Int) • P = 0) {a : Int} {P : G} (hP : P ≠ 0) :
    a • P = 0 ↔ (a : ZMod q) = 0 := by
  refine ⟨fun h => ?_, fun h => by simpa using smul_congr hq (b := 0) (by simpa using h) P⟩
  by_contra hne
  rcases invertMod_cases (p := q) a with ⟨h0, _⟩ | ⟨_, b, _, hb⟩
  · exact hne h0
  · apply hP
    have : (b * a) • P = (1 : Int) • P := smul_congr hq (by push_cast; rw [hb, inv_mul_cancel₀ hne]) P
    rw [mul_smul, h, smul_zero, one_smul] at this
    exact this.symm

end

/-- The scanning form of `ClearsBeforeRefresh`. -/
def tidy : Bool → List (Op G) → Prop
  | _, [] => True
  | f, .refresh _ :: t => f = false ∧ tidy f t
  | _, .clear :: t => tidy false t
  | f, .blind _ :: t => tidy f t
  | _, .finalize _ _ :: t => tidy true t

theorem tidy_of (ops : List (Op G)) : ∀ f : Bool, ClearsBeforeRefresh ops →
    (f = true → ∀ mid post r, ops = mid ++ Op.refresh r :: post → Op.clear ∈ mid) → tidy f ops := by
  induction ops with
  | nil => intro _ _ _; trivial
  | cons o t ih =>
    intro f h1 h2
    have ht : ClearsBeforeRefresh t := fun pre mid post e i r he => h1 (o :: pre) mid post e i r (by rw [he]; rfl)
    cases o with
    | refresh r =>
      have hf : f = false := by
        cases f with
        | false => rfl
        | true => simpa using h2 rfl [] t r rfl
      exact ⟨hf, ih f ht (by rw [hf]; simp)⟩
    | clear => exact ih false ht (by simp)
    | blind i =>
      refine ih f ht fun hf mid post r he => ?_
      have := h2 hf (Op.blind i :: mid) post r (by rw [he]; rfl)
      simpa using this
    | finalize e i => exact ih true ht fun _ mid post r he => h1 [] mid post e i r (by rw [he]; rfl)

section
variable {q : ℕ} [Fact q.Prime] {X : Ctx G}

theorem finalize_inv (hX : X.order = q) (c : Client) (e : G) (i : Bytes)
    (h : c.blindInv = 0 ∨ ((c.blindInv * c.blind : Int) : ZMod q) = 1) :
    (finalize X c e i).2.blind = c.blind ∧
    ((finalize X c e i).2.blindInv = 0 ∨
      (((finalize X c e i).2.blindInv * (finalize X c e i).2.blind : Int) : ZMod q) = 1) := by
  unfold finalize
  rw [hX]
  by_cases h0 : c.blindInv = 0
  · rw [if_pos h0]
    rcases invertMod_cases (p := q) c.blind with ⟨_, h⟩ | ⟨hne, b, hb, hbi⟩
    · rw [h]; exact ⟨rfl, Or.inl h0⟩
    · rw [hb]
      refine ⟨rfl, Or.inr ?_⟩
      push_cast
      rw [hbi, inv_mul_cancel₀ hne]
  · rw [if_neg h0]
    exact ⟨rfl, h⟩

theorem run_inv (hX : X.order = q) (ops : List (Op G)) : ∀ (f : Bool) (c : Client), tidy f ops →
    (c.blindInv = 0 ∨ ((c.blindInv * c.blind : Int) : ZMod q) = 1) → (f = false → c.blindInv = 0) →
    ((run X c ops).blindInv = 0 ∨ (((run X c ops).blindInv * (run X c ops).blind : Int) : ZMod q) = 1) := by
  induction ops with
  | nil => intro _ c _ h _; exact h
  | cons o t ih =>
    intro f c ht h hf
    cases o with
    | refresh r => exact ih f _ ht.2 (Or.inl (hf ht.1)) (fun _ => hf ht.1)
    | clear => exact ih false _ ht (Or.inl rfl) (fun _ => rfl)
    | blind i => exact ih f c ht h hf
    | finalize e i => exact ih true _ ht (finalize_inv hX c e i h).2 (by simp)

/-- What an evaluation returns in any state of the client. -/
theorem evaluate_eq (hX : X.order = q) (hq : ∀ P : G, (q : Int) • P = 0) (sk : Int) (c : Client) (i : Bytes)
    (h : c.blindInv = 0 ∨ ((c.blindInv * c.blind : Int) : ZMod q) = 1) :
    evaluate X sk c i = if (q : Int) ∣ c.blind then none else prf X sk i := by
  unfold evaluate finalize blindEvaluate blind
  rw [hX]
  have key : ∀ inv : Int, ((inv * c.blind : Int) : ZMod q) = 1 →
      inv • sk • c.blind • X.hashToGroup i = sk • X.hashToGroup i := by
    intro inv hi
    rw [smul_smul, smul_smul]
    refine smul_congr hq ?_ _
    push_cast at hi ⊢
    linear_combination (sk : ZMod q) * hi
  have hfin : (finalizeInput i (X.ser (sk • X.hashToGroup i))).map X.hash = prf X sk i := by
    rw [finalizeInput_eq]
    unfold prf
    simp only []
    split <;> rfl
  have hd : (q : Int) ∣ c.blind ↔ (c.blind : ZMod q) = 0 := (ZMod.intCast_zmod_eq_zero_iff_dvd _ _).symm
  by_cases h0 : c.blindInv = 0
  · rw [if_pos h0]
    rcases invertMod_cases (p := q) c.blind with ⟨hz, hn⟩ | ⟨hne, b, hb, hbi⟩
    · rw [hn, if_pos (hd.2 hz)]
    · rw [hb, if_neg (fun hh => hne (hd.1 hh))]
      simp only []
      rw [key b (by push_cast; rw [hbi, inv_mul_cancel₀ hne]), hfin]
  · rw [if_neg h0]
    have h1 := h.resolve_left h0
    simp only []
    rw [key _ h1, hfin, if_neg]
    intro hh
    push_cast at h1
    rw [hd.1 hh, mul_zero] at h1
    exact zero_ne_one h1

/-! ### C93 -/

/-- C93: after every history of calls in which `ClearBlind` comes between a `Finalize` and a later `RefreshBlind`, an
evaluation returns the pseudo random function of the server's key, whatever the blind; with a zero blind it throws.
Missing for the full property: histories that refresh without clearing (`C93_refresh_violated`). -/
theorem C93_output_partial (hX : X.order = q) (hq : ∀ P : G, (q : Int) • P = 0) (b : Int) (ops : List (Op G))
    (hops : ClearsBeforeRefresh ops) (sk : Int) (input : Bytes) :
    evaluate X sk (run X ⟨b, 0⟩ ops) input =
      if (q : Int) ∣ (run X ⟨b, 0⟩ ops).blind then none else prf X sk input :=
  evaluate_eq hX hq sk _ input
    (run_inv hX ops false _ (tidy_of ops false hops (by simp)) (Or.inl rfl) (fun _ => rfl))

/-- C93: the blind in use is the last one set, whatever else was called. -/
theorem C93_blind (c : Client) (ops : List (Op G)) (r : Int) (tail : List (Op G))
    (ht : ∀ o ∈ tail, (∃ i, o = Op.blind i) ∨ ∃ e i, o = Op.finalize e i) :
    (run X c (ops ++ Op.refresh r :: tail)).blind = r := by
  have h1 : run X c (ops ++ Op.refresh r :: tail) = run X (step X (run X c ops) (.refresh r)) tail := by
    simp [run]
  rw [h1]
  generalize hc : step X (run X c ops) (.refresh r) = d
  have hd : d.blind = r := by rw [← hc]; rfl
  clear hc h1
  induction tail generalizing d with
  | nil => exact hd
  | cons o t ih =>
    refine ih (fun o' ho => ht o' (List.mem_cons_of_mem _ ho)) (step X d o) ?_
    rcases ht o List.mem_cons_self with ⟨i, rfl⟩ | ⟨e, i, rfl⟩
    · exact hd
    · have : (finalize X d e i).2.blind = d.blind := by
        unfold finalize
        split <;> rfl
      exact this.trans hd

/-- C93: refreshing the blind of a client that has finalised an evaluation makes it return something else than the
pseudo random function, for every key, input, and pair of different blinds, when the hash and the serialisation are
injective: the cached inverse belongs to the old blind. -/
theorem C93_refresh_violated (hX : X.order = q) (hq : ∀ P : G, (q : Int) • P = 0)
    (hser : Function.Injective X.ser) (hhash : Function.Injective X.hash)
    {b b' sk : Int} (hb : ¬ (q : Int) ∣ b) (hbb : ¬ (q : Int) ∣ b' - b) (hsk : ¬ (q : Int) ∣ sk)
    {input : Bytes} (hi : X.hashToGroup input ≠ 0) (e : G) (input' : Bytes) (hp : prf X sk input ≠ none) :
    evaluate X sk (run X ⟨b, 0⟩ [.finalize e input', .refresh b']) input ≠ prf X sk input := by
  have hz : ∀ a : Int, (q : Int) ∣ a ↔ (a : ZMod q) = 0 := fun a => (ZMod.intCast_zmod_eq_zero_iff_dvd _ _).symm
  obtain ⟨inv, hinv, hii⟩ : ∃ inv, invertMod b q = some inv ∧ (inv : ZMod q) = (b : ZMod q)⁻¹ := by
    rcases invertMod_cases (p := q) b with ⟨h0, _⟩ | ⟨_, inv, h, h2⟩
    · exact absurd ((hz b).2 h0) hb
    · exact ⟨inv, h, h2⟩
  have hb0 : (b : ZMod q) ≠ 0 := fun h => hb ((hz b).2 h)
  have hinv0 : inv ≠ 0 := by
    rintro rfl
    apply inv_ne_zero hb0
    rw [← hii]; simp
  have hrun : run X ⟨b, 0⟩ [.finalize e input', .refresh b'] = ⟨b', inv⟩ := by
    simp [run, step, finalize, hX, hinv]
  rw [hrun]
  unfold evaluate finalize blindEvaluate blind
  simp only [hinv0, if_false]
  intro hcon
  rw [finalizeInput_eq] at hcon
  unfold prf at hcon hp
  simp only [] at hcon hp
  split at hcon
  · rename_i hl
    split at hcon
    · rename_i hl2
      simp only [Option.map_some, Option.some.injEq] at hcon
      have h1 := hhash hcon
      simp only [List.append_assoc] at h1
      have h2 := (frame_append_inj hl.1 hl2.1 (by simpa only [List.append_assoc] using h1)).2
      have h3 := hser (frame_append_inj hl.2 hl2.2 (by simpa only [List.append_assoc] using h2)).1
      rw [smul_smul, smul_smul, ← sub_eq_zero, ← sub_smul, smul_eq_zero_iff hq hi] at h3
      apply hbb
      rw [hz]
      have hsk0 : (sk : ZMod q) ≠ 0 := fun h => hsk ((hz sk).2 h)
      push_cast at h3 ⊢
      rw [hii] at h3
      have h4 : (sk : ZMod q) * ((b : ZMod q)⁻¹ * (b' - b)) = 0 := by
        rw [mul_sub, inv_mul_cancel₀ hb0]
        linear_combination h3
      rcases mul_eq_zero.1 h4 with h | h
      · exact absurd h hsk0
      · exact (mul_eq_zero.1 h).resolve_left (inv_ne_zero hb0)
    · simp at hcon
  · split at hcon
    · simp at hcon
    · rename_i h
      exact hp (if_neg h)

/-- C93: the blinded element says nothing about the input.  In a group of prime order generated by `X.gen`, for any two
inputs with non-zero hashes and any non-zero blind of the first there is exactly one blind of the second that gives the
same blinded element. -/
theorem C93_hiding (hq : ∀ P : G, (q : Int) • P = 0) (hgen : ∀ P : G, ∃ k : Int, P = k • X.gen)
    {x x' : Bytes} (hx : X.hashToGroup x ≠ 0) (hx' : X.hashToGroup x' ≠ 0) (b : Int) (hb : ¬ (q : Int) ∣ b) :
    ∃! b' : Int, 0 < b' ∧ b' < q ∧ blind X ⟨b', 0⟩ x' = blind X ⟨b, 0⟩ x := by
  have hz : ∀ a : Int, (q : Int) ∣ a ↔ (a : ZMod q) = 0 := fun a => (ZMod.intCast_zmod_eq_zero_iff_dvd _ _).symm
  have hqpos : (0 : Int) < q := by exact_mod_cast (Fact.out : q.Prime).pos
  obtain ⟨k, hk⟩ := hgen (X.hashToGroup x)
  obtain ⟨k', hk'⟩ := hgen (X.hashToGroup x')
  have hg : X.gen ≠ 0 := by
    intro h; apply hx; rw [hk, h, smul_zero]
  have hk0 : (k : ZMod q) ≠ 0 := fun h => hx (by rw [hk]; exact (smul_eq_zero_iff hq hg).2 h)
  have hk0' : (k' : ZMod q) ≠ 0 := fun h => hx' (by rw [hk']; exact (smul_eq_zero_iff hq hg).2 h)
  have hb0 : (b : ZMod q) ≠ 0 := fun h => hb ((hz b).2 h)
  have hiff : ∀ a : Int, blind X ⟨a, 0⟩ x' = blind X ⟨b, 0⟩ x ↔ (a : ZMod q) = b * k * (k' : ZMod q)⁻¹ := by
    intro a
    unfold blind
    simp only []
    rw [hk, hk', smul_smul, smul_smul, ← sub_eq_zero, ← sub_smul, smul_eq_zero_iff hq hg]
    push_cast
    rw [sub_eq_zero, eq_mul_inv_iff_mul_eq₀ hk0']
  have hne : (b * k * (k' : ZMod q)⁻¹ : ZMod q) ≠ 0 := mul_ne_zero (mul_ne_zero hb0 hk0) (inv_ne_zero hk0')
  obtain ⟨v, hv⟩ := ZMod.intCast_surjective (b * k * (k' : ZMod q)⁻¹ : ZMod q)
  have hcm : ((v % (q : Int) : Int) : ZMod q) = v := by
    rw [ZMod.intCast_eq_intCast_iff]; exact Int.mod_modEq _ _
  refine ⟨v % q, ⟨?_, Int.emod_lt_of_pos _ hqpos, (hiff _).2 (by rw [hcm, hv])⟩, ?_⟩
  · rcases (Int.emod_nonneg v hqpos.ne').lt_or_eq with h | h
    · exact h
    · exfalso; apply hne; rw [← hv, ← hcm, ← h]; simp
  · rintro a ⟨ha0, haq, ha⟩
    have : (a : ZMod q) = (v : ZMod q) := by rw [(hiff a).1 ha, hv]
    rw [ZMod.intCast_eq_intCast_iff] at this
    rw [← this.eq, Int.emod_eq_of_lt ha0.le haq]

/-- C93: the byte string `Finalize` hashes determines the input and the unblinded element. -/
theorem C93_framing {i p i' p' : Bytes} (h : finalizeInput i p = finalizeInput i' p') (hn : finalizeInput i p ≠ none) :
    i = i' ∧ p = p' := by
  have hn' : finalizeInput i' p' ≠ none := h ▸ hn
  rw [finalizeInput_eq] at hn hn' h
  rw [finalizeInput_eq] at h
  split at hn
  · rename_i h1
    split at hn'
    · rename_i h2
      rw [if_pos h1, if_pos h2, Option.some.injEq] at h
      simp only [List.append_assoc] at h
      have e1 := frame_append_inj h1.1 h2.1 (by simpa only [List.append_assoc] using h)
      have e2 := frame_append_inj h1.2 h2.2 (by simpa only [List.append_assoc] using e1.2)
      exact ⟨e1.1, e2.1⟩
    · exact absurd rfl hn'
  · exact absurd rfl hn

end
end Yacl.Oprf
