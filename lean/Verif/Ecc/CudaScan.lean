import Verif.Ecc.CudaInv
import Mathlib.Algebra.BigOperators.Intervals
import Mathlib.Algebra.BigOperators.Field

/-! Model of the block-wide inversion of the GPU code for SM2 (yacl/crypto/ecc/cuda/kernels/sm2_kernels.cu L968-1062): the threads of a block
share arrays, and between two barriers they run in any order. -/

namespace Yacl.Cuda

open Finset

/-- A shared array. -/
abbrev Arr := ℕ → Fe

/-- The index of thread `t` in a phase (L977, L996). -/
def thIdx (off t : ℕ) : ℕ := (t + 1) * off * 2 - 1

/-- What thread `t` does in an upsweep phase (L977-982). -/
def upT (B off : ℕ) (d : Arr) (t : ℕ) : Arr :=
  let idx := thIdx off t
  if idx < B then Function.update d idx (fpMul (d (idx - off)) (d idx)) else d

/-- What thread `t` does in a downsweep phase (L996-1003). -/
def downT (B off : ℕ) (d : Arr) (t : ℕ) : Arr :=
  let idx := thIdx off t
  if idx < B then
    let t0 := d (idx - off)
    let t1 := d idx
    Function.update (Function.update d (idx - off) t1) idx (fpMul t0 t1)
  else d

/-- A phase between two barriers: the threads of the block, in the order `order`. -/
def phase (body : Arr → ℕ → Arr) (order : List ℕ) (d : Arr) : Arr := order.foldl body d

/-- An order in which the threads of a block of `B` may run. -/
def Schedule (B : ℕ) (order : List ℕ) : Prop := order.Nodup ∧ ∀ t, t ∈ order ↔ t < B

/-- The upsweep loop (L974-984): offsets 1, 2, 4, … below `2 ^ m`, the phase of offset `2 ^ s` in the order `ord s`. -/
def upsweep (m : ℕ) (ord : ℕ → List ℕ) (d : Arr) : ℕ → Arr
  | 0 => d
  | s + 1 => phase (upT (2 ^ m) (2 ^ s)) (ord s) (upsweep m ord d s)

/-- The downsweep loop (L992-1005): offsets `2 ^ (s - 1)`, …, 2, 1. -/
def downsweep (m : ℕ) (ord : ℕ → List ℕ) : ℕ → Arr → Arr
  | 0, d => d
  | s + 1, d => downsweep m ord s (phase (downT (2 ^ m) (2 ^ s)) (ord s) d)

/-- sm2_kernels.cu L968-1007 `blockExclusiveProdScan` on a block of `2 ^ m` threads. -/
def scan (m : ℕ) (ordU ordD : ℕ → List ℕ) (d : Arr) : Arr :=
  downsweep m ordD m (Function.update (upsweep m ordU d m) (2 ^ m - 1) fpOne)

/-- sm2_kernels.cu L1009-1062 `jacobianToAffineBatchInv` on a block of `2 ^ m` threads: the affine point of thread `tid`.  `pts` and `active`
are the arguments of the threads. -/
def batchInv (m : ℕ) (ord : ℕ → ℕ → List ℕ) (pts : ℕ → Jac) (active : ℕ → Bool) (tid : ℕ) : Aff :=
  let B := 2 ^ m
  let valid := fun t => active t && !jIsInf (pts t)
  let z : Arr := fun t => if valid t then (pts t).Z else fpOne
  let prefix' := scan m (ord 0) (ord 1) z
  let revs := scan m (ord 2) (ord 3) (fun t => z (B - 1 - t))
  let invTotal := fpInv (fpMul (prefix' (B - 1)) (z (B - 1)))
  if !valid tid then ⟨fpZero, fpZero⟩ else
    let suffix := revs (B - 1 - tid)
    let prod := fpMul (prefix' tid) suffix
    let zInv := fpMul prod invTotal
    let zInv2 := fpSqr zInv
    let zInv3 := fpMul zInv2 zInv
    ⟨fpMul (pts tid).X zInv2, fpMul (pts tid).Y zInv3⟩

/-! ### Proof -/

theorem thIdx_inj {off t u : ℕ} (h : 0 < off) (e : thIdx off t = thIdx off u) : t = u := by
  simp only [thIdx] at e
  have h1 : 0 < (t + 1) * off := by positivity
  have h2 : 0 < (u + 1) * off := by positivity
  have : (t + 1) * off = (u + 1) * off := by omega
  have := Nat.eq_of_mul_eq_mul_right h this
  omega

/-- The left index of one thread is not the right index of another. -/
theorem left_ne {off t u : ℕ} (h : 0 < off) : thIdx off t - off ≠ thIdx off u := by
  simp only [thIdx]
  intro e
  have h1 : (t + 1) * off = t * off + off := by ring
  have h2 : (u + 1) * off = u * off + off := by ring
  rw [h1, h2] at e
  have e2 : t * off * 2 + off = (u * off + off) * 2 := by omega
  have e3 : (t * 2 + 1) * off = (u * 2 + 2) * off := by ring_nf; ring_nf at e2; omega
  have := Nat.eq_of_mul_eq_mul_right h e3
  omega

/-- C150: two threads of a phase never touch the same entry. -/
theorem C150_disjoint {off t u : ℕ} (h : 0 < off) (hne : t ≠ u) :
    thIdx off t ≠ thIdx off u ∧ thIdx off t - off ≠ thIdx off u - off ∧ thIdx off t - off ≠ thIdx off u := by
  refine ⟨fun e => hne (thIdx_inj h e), fun e => hne (thIdx_inj h ?_), left_ne h⟩
  have h1 : off ≤ thIdx off t := by
    simp only [thIdx]; rw [add_mul, one_mul]; omega 
  have h2 : off ≤ thIdx off u := by
    simp only [thIdx]; rw [add_mul, one_mul]; omega
  omega

theorem up_phase (B off : ℕ) (h : 0 < off) (d : Arr) (order : List ℕ) : ∀ i,
    order.Nodup → 
    phase (upT B off) order d i = if i < B ∧ ∃ t ∈ order, i = thIdx off t then fpMul (d (i - off)) (d i) else d i := by
  induction order using List.reverseRecOn with
  | nil => intro i _; simp [phase]
  | append_singleton l t ih =>
    intro i hn
    rw [List.nodup_append] at hn
    have hn1 := hn.1
    have hnt : t ∉ l := fun hm => hn.2.2 t hm t (by simp) rfl
    have e : phase (upT B off) (l ++ [t]) d = upT B off (phase (upT B off) l d) t := by simp [phase]
    rw [e]
    have k1 : phase (upT B off) l d (thIdx off t) = d (thIdx off t) := by
      rw [ih _ hn1, if_neg]
      rintro ⟨-, u, hu, he⟩
      exact hnt (by rwa [thIdx_inj h he])
    have k2 : phase (upT B off) l d (thIdx off t - off) = d (thIdx off t - off) := by
      rw [ih _ hn1, if_neg]
      rintro ⟨-, u, hu, he⟩
      exact left_ne h he
    simp only [upT]
    by_cases hb : thIdx off t < B
    · rw [if_pos hb]
      by_cases hi : i = thIdx off t
      · subst hi
        rw [Function.update_self, k1, k2, if_pos ⟨hb, t, by simp, rfl⟩]
      · rw [Function.update_of_ne hi, ih _ hn1]
        congr 1
        simp only [List.mem_append, List.mem_singleton, eq_iff_iff]
        constructor
        · rintro ⟨a, u, hu, he⟩; exact ⟨a, u, .inl hu, he⟩
        · rintro ⟨a, u, hu | hu, he⟩
          · exact ⟨a, u, hu, he⟩
          · exact absurd (by rw [he, hu]) hi
    · rw [if_neg hb, ih _ hn1]
      congr 1
      simp only [List.mem_append, List.mem_singleton, eq_iff_iff]
      constructor
      · rintro ⟨a, u, hu, he⟩; exact ⟨a, u, .inl hu, he⟩
      · rintro ⟨a, u, hu | hu, he⟩
        · exact ⟨a, u, hu, he⟩
        · subst hu; exact absurd (he ▸ a) hb

theorem down_phase (B off : ℕ) (h : 0 < off) (d : Arr) (order : List ℕ) (hn : order.Nodup) : 
    (∀ t ∈ order, thIdx off t < B → phase (downT B off) order d (thIdx off t) = fpMul (d (thIdx off t - off)) (d (thIdx off t)) ∧
      phase (downT B off) order d (thIdx off t - off) = d (thIdx off t)) ∧
    (∀ i, (∀ t ∈ order, thIdx off t < B → i ≠ thIdx off t ∧ i ≠ thIdx off t - off) → phase (downT B off) order d i = d i) := by
  induction order using List.reverseRecOn with
  | nil => exact ⟨by simp, by simp [phase]⟩
  | append_singleton l t ih =>
    rw [List.nodup_append] at hn
    obtain ⟨ih1, ih2⟩ := ih hn.1
    have hnt : t ∉ l := fun hm => hn.2.2 t hm t (by simp) rfl
    have e : phase (downT B off) (l ++ [t]) d = downT B off (phase (downT B off) l d) t := by simp [phase]
    rw [e]
    have hd : ∀ u ∈ l, t ≠ u := fun u hu e => hnt (e ▸ hu)
    have k1 : phase (downT B off) l d (thIdx off t) = d (thIdx off t) :=
      ih2 _ fun u hu _ => ⟨(C150_disjoint h (hd u hu)).1, fun e => left_ne h e.symm⟩
    have k2 : phase (downT B off) l d (thIdx off t - off) = d (thIdx off t - off) :=
      ih2 _ fun u hu _ => ⟨left_ne h, (C150_disjoint h (hd u hu)).2.1⟩
    simp only [downT]
    by_cases hb : thIdx off t < B
    · simp only [if_pos hb]
      rw [k1, k2]
      constructor
      · intro u hu hub
        rw [List.mem_append, List.mem_singleton] at hu
        rcases hu with hu | rfl
        · have c := C150_disjoint h (hd u hu)
          obtain ⟨a1, a2⟩ := ih1 u hu hub
          rw [Function.update_of_ne (Ne.symm c.1), Function.update_of_ne (fun e => left_ne h e.symm), Function.update_of_ne (left_ne h),
            Function.update_of_ne (Ne.symm c.2.1)]
          exact ⟨a1, a2⟩
        · rw [Function.update_self, Function.update_of_ne (left_ne h), Function.update_self]
          exact ⟨rfl, rfl⟩
      · intro i hi
        have c := hi t (by simp) hb
        rw [Function.update_of_ne c.1, Function.update_of_ne c.2]
        exact ih2 i fun u hu => hi u (by simp [hu])
    · simp only [if_neg hb]
      constructor
      · intro u hu hub
        rw [List.mem_append, List.mem_singleton] at hu
        rcases hu with hu | rfl
        · exact ih1 u hu hub
        · exact absurd hub hb
      · intro i hi
        exact ih2 i fun u hu => hi u (by simp [hu])

theorem idx_iff {B s i : ℕ} {order : List ℕ} (ho : Schedule B order) (hi : i < B) :
    (∃ t ∈ order, i = thIdx (2 ^ s) t) ↔ 2 ^ (s + 1) ∣ i + 1 := by
  have hp : 0 < 2 ^ s := by positivity
  constructor
  · rintro ⟨t, -, e⟩
    refine ⟨t + 1, ?_⟩
    rw [e, thIdx]
    have : 0 < (t + 1) * 2 ^ s := by positivity
    rw [Nat.sub_add_cancel (by omega), pow_succ]; ring
  · rintro ⟨c, hc⟩
    cases c with
    | zero => omega
    | succ c =>
      have e : 2 ^ (s + 1) * (c + 1) = (c + 1) * 2 ^ s * 2 := by rw [pow_succ]; ring
      refine ⟨c, (ho.2 c).2 ?_, ?_⟩
      · have : c + 1 ≤ (c + 1) * 2 ^ s := Nat.le_mul_of_pos_right _ hp
        omega
      · rw [thIdx]; omega

/-- After the upsweep phases below `2 ^ s`. -/
def UpInv (B s : ℕ) (z d : Arr) : Prop := ∀ i < B, (d i).Red ∧ ∀ r ≤ s, 2 ^ r ∣ i + 1 → (r = s ∨ ¬ 2 ^ (r + 1) ∣ i + 1) →
  (d i).dec = ∏ k ∈ Ico (i + 1 - 2 ^ r) (i + 1), (z k).dec

theorem upsweep_inv (m : ℕ) (ord : ℕ → List ℕ) (ho : ∀ s, Schedule (2 ^ m) (ord s)) (z : Arr) (hz : ∀ i < 2 ^ m, (z i).Red) (s : ℕ) :
    UpInv (2 ^ m) s z (upsweep m ord z s) := by
  induction s with
  | zero =>
    intro i hi
    refine ⟨hz i hi, fun r hr _ _ => ?_⟩
    obtain rfl : r = 0 := by omega
    simp [upsweep]
  | succ s ih =>
    intro i hi
    have hp : 0 < 2 ^ s := by positivity
    have hps : 2 ^ (s + 1) = 2 ^ s * 2 := pow_succ 2 s
    simp only [upsweep]
    rw [up_phase _ _ hp _ _ _ (ho s).1]
    by_cases hd : 2 ^ (s + 1) ∣ i + 1
    · rw [if_pos ⟨hi, (idx_iff (ho s) hi).2 hd⟩]
      have hle := Nat.le_of_dvd (by omega) hd
      have hds : 2 ^ s ∣ i + 1 := Dvd.dvd.trans ⟨2, hps⟩ hd
      obtain ⟨r1, e1⟩ := ih (i - 2 ^ s) (by omega)
      obtain ⟨r2, e2⟩ := ih i hi
      refine ⟨r_mul r1 r2, fun r hr hdr hc => ?_⟩
      have hrs : r = s + 1 := by
        rcases hc with hc | hc
        · exact hc
        · by_contra hh
          exact hc (Dvd.dvd.trans (pow_dvd_pow 2 (by omega)) hd)
      subst hrs
      have hi2 : i - 2 ^ s + 1 = i + 1 - 2 ^ s := by omega
      rw [d_mul r1 r2, e1 s (le_refl _) (by rw [hi2]; exact Nat.dvd_sub hds (dvd_refl _)) (.inl rfl), e2 s (le_refl _) hds (.inl rfl), hi2,
        Nat.sub_sub, ← two_mul, mul_comm 2, ← hps]
      exact Finset.prod_Ico_consecutive (fun k => (z k).dec) (by omega) (by omega)
    · rw [if_neg (fun hh => hd ((idx_iff (ho s) hi).1 hh.2))]
      obtain ⟨r2, e2⟩ := ih i hi
      refine ⟨r2, fun r hr hdr hc => ?_⟩
      have hrs : r ≤ s := by
        by_contra hh
        obtain rfl : r = s + 1 := by omega
        exact hd hdr
      refine e2 r hrs hdr ?_
      rcases hc with hc | hc
      · omega
      · exact .inr hc

/-- Before the downsweep phase of offset `2 ^ (s - 1)`. -/
def DownInv (B s : ℕ) (z d : Arr) : Prop := ∀ i < B, (d i).Red ∧
  (2 ^ s ∣ i + 1 → (d i).dec = ∏ k ∈ range (i + 1 - 2 ^ s), (z k).dec) ∧
  (∀ r < s, 2 ^ r ∣ i + 1 → ¬ 2 ^ (r + 1) ∣ i + 1 → (d i).dec = ∏ k ∈ Ico (i + 1 - 2 ^ r) (i + 1), (z k).dec)

theorem downsweep_inv (m : ℕ) (ord : ℕ → List ℕ) (ho : ∀ s, Schedule (2 ^ m) (ord s)) (z : Arr) (s : ℕ) (hs : s ≤ m) : ∀ d : Arr,
    DownInv (2 ^ m) s z d → DownInv (2 ^ m) 0 z (downsweep m ord s d) := by
  induction s with
  | zero => intro d h; exact h
  | succ s ih =>
    intro d h
    simp only [downsweep]
    refine ih (by omega) _ ?_
    have hp : 0 < 2 ^ s := by positivity
    have hps : 2 ^ (s + 1) = 2 ^ s * 2 := pow_succ 2 s
    obtain ⟨p1, p2⟩ := down_phase (2 ^ m) (2 ^ s) hp d (ord s) (ho s).1
    intro i hi
    by_cases hd : 2 ^ (s + 1) ∣ i + 1
    · obtain ⟨t, ht, he⟩ := (idx_iff (ho s) hi).2 hd
      have hle := Nat.le_of_dvd (by omega) hd
      have hds : 2 ^ s ∣ i + 1 := Dvd.dvd.trans ⟨2, hps⟩ hd
      obtain ⟨q1, -⟩ := p1 t ht (he ▸ hi)
      rw [← he] at q1
      rw [q1]
      obtain ⟨r1, -, e1⟩ := h (i - 2 ^ s) (by omega)
      obtain ⟨r2, e2, -⟩ := h i hi
      have hi2 : i - 2 ^ s + 1 = i + 1 - 2 ^ s := by omega
      have hnd : ¬ 2 ^ (s + 1) ∣ i + 1 - 2 ^ s := by
        intro hh
        have := (Nat.dvd_sub_iff_right (by omega : 2 ^ s ≤ i + 1) hd).1 hh
        have := Nat.le_of_dvd hp this
        omega
      refine ⟨r_mul r1 r2, fun _ => ?_, fun r hr h1 h2 => ?_⟩
      · rw [d_mul r1 r2, e1 s (by omega) (by rw [hi2]; exact Nat.dvd_sub hds (dvd_refl _)) (by rw [hi2]; exact hnd), e2 hd, hi2,
          Nat.sub_sub, ← two_mul, mul_comm 2, ← hps, mul_comm, Finset.range_eq_Ico, Finset.range_eq_Ico]
        exact Finset.prod_Ico_consecutive (fun k => (z k).dec) (by omega) (by omega)
      · exact absurd (Dvd.dvd.trans (pow_dvd_pow 2 (by omega)) hd) h2
    · by_cases hds : 2 ^ s ∣ i + 1
      · have hd' : 2 ^ (s + 1) ∣ i + 2 ^ s + 1 := by
          obtain ⟨c, hc⟩ := hds
          have hodd : c % 2 = 1 := by
            by_contra hh
            exact hd ⟨c / 2, by rw [hc, hps, mul_assoc]; congr 1; omega⟩
          refine ⟨(c + 1) / 2, ?_⟩
          rw [hps, mul_assoc, show 2 * ((c + 1) / 2) = c + 1 by omega, mul_add, ← hc]; ring
        have hi' : i + 2 ^ s < 2 ^ m := by
          have h1 : 2 ^ (s + 1) ∣ 2 ^ m := pow_dvd_pow 2 hs
          obtain ⟨a, ha⟩ := hd'
          obtain ⟨b, hb⟩ := h1
          by_contra hh
          have h3 : b < a := by
            by_contra h4
            have : 2 ^ (s + 1) * a ≤ 2 ^ (s + 1) * b := Nat.mul_le_mul_left _ (by omega)
            omega
          have : 2 ^ (s + 1) * (b + 1) ≤ 2 ^ (s + 1) * a := Nat.mul_le_mul_left _ h3
          rw [mul_add, mul_one] at this
          omega
        obtain ⟨t, ht, he⟩ := (idx_iff (ho s) hi').2 hd'
        obtain ⟨-, q2⟩ := p1 t ht (he ▸ hi')
        rw [← he, Nat.add_sub_cancel] at q2
        rw [q2]
        obtain ⟨r2, e2, -⟩ := h _ hi'
        refine ⟨r2, fun _ => ?_, fun r hr h1 h2 => ?_⟩
        · rw [e2 hd', show i + 2 ^ s + 1 - 2 ^ (s + 1) = i + 1 - 2 ^ s by omega]
        · exact absurd (Dvd.dvd.trans (pow_dvd_pow 2 (by omega)) hds) h2
      · rw [p2 i]
        · obtain ⟨r2, -, e3⟩ := h i hi
          exact ⟨r2, fun hh => absurd hh hds, fun r hr h1 h2 => e3 r (by omega) h1 h2⟩
        · intro t ht hb
          constructor
          · intro e
            exact hd ((idx_iff (ho s) hi).1 ⟨t, ht, e⟩)
          · intro e
            apply hds
            have := (idx_iff (ho s) hb).1 ⟨t, ht, rfl⟩
            have h5 : 2 ^ s ∣ thIdx (2 ^ s) t + 1 := Dvd.dvd.trans ⟨2, hps⟩ this
            have h6 : 2 ^ (s + 1) ≤ thIdx (2 ^ s) t + 1 := Nat.le_of_dvd (by omega) this
            rw [e, show thIdx (2 ^ s) t - 2 ^ s + 1 = thIdx (2 ^ s) t + 1 - 2 ^ s by omega]
            exact Nat.dvd_sub h5 (dvd_refl _)

/-- C150: under every schedule the scan leaves at every index the product of the entries before it. -/
theorem C150_scan (m : ℕ) (ordU ordD : ℕ → List ℕ) (hU : ∀ s, Schedule (2 ^ m) (ordU s)) (hD : ∀ s, Schedule (2 ^ m) (ordD s)) (z : Arr)
    (hz : ∀ i < 2 ^ m, (z i).Red) (i : ℕ) (hi : i < 2 ^ m) :
    (scan m ordU ordD z i).Red ∧ (scan m ordU ordD z i).dec = ∏ k ∈ range i, (z k).dec := by
  have hu := upsweep_inv m ordU hU z hz m
  have := downsweep_inv m ordD hD z m (le_refl _) (Function.update (upsweep m ordU z m) (2 ^ m - 1) fpOne) ?_ i hi
  · obtain ⟨a, b, -⟩ := this
    refine ⟨a, ?_⟩
    have := b (by simp)
    rw [scan]
    simpa using this
  · intro k hk
    by_cases hkl : k = 2 ^ m - 1
    · subst hkl
      rw [Function.update_self]
      have hp : 0 < 2 ^ m := by positivity
      refine ⟨red_one, fun _ => ?_, fun r hr _ h2 => ?_⟩
      · rw [dec_one, Nat.sub_add_cancel hp, Nat.sub_self, range_zero, prod_empty]
      · rw [Nat.sub_add_cancel hp] at h2
        exact absurd (pow_dvd_pow 2 (by omega)) h2
    · rw [Function.update_of_ne hkl]
      obtain ⟨a, b⟩ := hu k hk
      refine ⟨a, fun hh => ?_, fun r hr h1 h2 => b r (by omega) h1 (.inr h2)⟩
      have := Nat.le_of_dvd (by omega) hh
      omega

theorem inv_alg {F : Type*} [Field F] {p s z : F} (h : p * z * s ≠ 0) : p * s * (p * z * s)⁻¹ = z⁻¹ := by
  have hz : z ≠ 0 := by rintro rfl; simp at h
  have hp : p ≠ 0 := by rintro rfl; simp at h
  have hs : s ≠ 0 := by rintro rfl; simp at h
  field_simp

/-- C150: under every schedule every thread of the block gets the affine point of its own Jacobian point; an inactive thread gets (0, 0). -/
theorem C150_batch (m : ℕ) (ord : ℕ → ℕ → List ℕ) (ho : ∀ a s, Schedule (2 ^ m) (ord a s)) (pts : ℕ → Jac) (active : ℕ → Bool)
    (Q : ℕ → E.Point) (hp : ∀ t < 2 ^ m, active t = true → RepJ (pts t) (Q t)) (tid : ℕ) (ht : tid < 2 ^ m) :
    (active tid = true → RepA (batchInv m ord pts active tid) (Q tid)) ∧
    (active tid = false → batchInv m ord pts active tid = ⟨fpZero, fpZero⟩) := by
  set z : Arr := fun t => if active t && !jIsInf (pts t) then (pts t).Z else fpOne with hzdef
  have hz : ∀ i < 2 ^ m, (z i).Red ∧ (z i).dec ≠ 0 := by
    intro i hi
    simp only [hzdef]
    split
    · next h =>
      rw [Bool.and_eq_true] at h
      have hr := hp i hi h.1
      refine ⟨hr.1.2.2, fun e => ?_⟩
      have : jIsInf (pts i) = true := (z_iff hr.1.2.2).2 e
      rw [this] at h
      simp at h
    · exact ⟨red_one, by rw [dec_one]; exact one_ne_zero⟩
  have hB : 0 < 2 ^ m := by positivity
  have s1 := C150_scan m (ord 0) (ord 1) (ho 0) (ho 1) z (fun i hi => (hz i hi).1)
  have s2 := C150_scan m (ord 2) (ord 3) (ho 2) (ho 3) (fun t => z (2 ^ m - 1 - t)) (fun i hi => (hz _ (by omega)).1)
  have hb : batchInv m ord pts active tid =
      if !(active tid && !jIsInf (pts tid)) then ⟨fpZero, fpZero⟩ else
        let zInv := fpMul (fpMul (scan m (ord 0) (ord 1) z tid) (scan m (ord 2) (ord 3) (fun t => z (2 ^ m - 1 - t)) (2 ^ m - 1 - tid)))
          (fpInv (fpMul (scan m (ord 0) (ord 1) z (2 ^ m - 1)) (z (2 ^ m - 1))))
        ⟨fpMul (pts tid).X (fpSqr zInv), fpMul (pts tid).Y (fpMul (fpSqr zInv) zInv)⟩ := rfl
  rw [hb]
  clear hb
  refine ⟨fun ha => ?_, fun ha => by rw [ha]; rfl⟩
  have hr := hp tid ht ha
  have hi := isInf_iff hr
  have hzt : active tid = true → jIsInf (pts tid) = false → z tid = (pts tid).Z := by
    intro h1 h2; simp only [hzdef, h1, h2, Bool.not_false, Bool.and_self, if_true]
  rw [ha]
  cases hq : Q tid with
  | zero =>
    rw [hq] at hi
    rw [hi.2 rfl]
    exact ⟨⟨red_zero, red_zero⟩, dec_zero, dec_zero⟩
  | some x y hh =>
    rw [hq] at hi hr
    have hf : jIsInf (pts tid) = false := by
      rw [Bool.eq_false_iff]; exact fun e => WeierstrassCurve.Affine.Point.some_ne_zero hh (hi.1 e)
    rw [hf]
    obtain ⟨⟨hX, hY, hZ⟩, hzz, hx, hy⟩ := hr
    obtain ⟨a1, a2⟩ := s1 tid ht
    obtain ⟨b1, b2⟩ := s2 (2 ^ m - 1 - tid) (by omega)
    obtain ⟨c1, c2⟩ := s1 (2 ^ m - 1) (by omega)
    obtain ⟨d1, -⟩ := hz (2 ^ m - 1) (by omega)
    obtain ⟨i1, i2⟩ := C150_inv _ (r_mul c1 d1)
    rw [d_mul c1 d1, c2] at i2
    have hsuf : ∏ k ∈ range (2 ^ m - 1 - tid), (z (2 ^ m - 1 - k)).dec = ∏ k ∈ Ico (tid + 1) (2 ^ m), (z k).dec := by
      refine Finset.prod_bij' (fun k _ => 2 ^ m - 1 - k) (fun k _ => 2 ^ m - 1 - k) ?_ ?_ ?_ ?_ ?_
      · intro k hk; simp only [mem_range] at hk; simp only [mem_Ico]; omega
      · intro k hk; simp only [mem_Ico] at hk; simp only [mem_range]; omega
      · intro k hk; rw [mem_range] at hk; show 2 ^ m - 1 - (2 ^ m - 1 - k) = k; omega
      · intro k hk; rw [mem_Ico] at hk; show 2 ^ m - 1 - (2 ^ m - 1 - k) = k; omega
      · intro k _; rfl
    have htot : (∏ k ∈ range (2 ^ m - 1), (z k).dec) * (z (2 ^ m - 1)).dec =
        (∏ k ∈ range tid, (z k).dec) * (z tid).dec * ∏ k ∈ Ico (tid + 1) (2 ^ m), (z k).dec := by
      rw [← Finset.prod_range_succ, ← Finset.prod_range_succ, Nat.sub_add_cancel hB]
      exact (Finset.prod_range_mul_prod_Ico _ (by omega)).symm
    have hne : (∏ k ∈ range tid, (z k).dec) * (z tid).dec * ∏ k ∈ Ico (tid + 1) (2 ^ m), (z k).dec ≠ 0 := by
      refine mul_ne_zero (mul_ne_zero ?_ (hz tid ht).2) ?_
      · exact Finset.prod_ne_zero_iff.2 fun k hk => (hz k (by rw [mem_range] at hk; omega)).2
      · exact Finset.prod_ne_zero_iff.2 fun k hk => (hz k (by rw [mem_Ico] at hk; omega)).2
    rw [hsuf] at b2
    rw [htot] at i2
    generalize fpInv (fpMul (scan m (ord 0) (ord 1) z (2 ^ m - 1)) (z (2 ^ m - 1))) = inv at *
    generalize scan m (ord 2) (ord 3) (fun t => z (2 ^ m - 1 - t)) (2 ^ m - 1 - tid) = suf at *
    generalize scan m (ord 0) (ord 1) z tid = pre at *
    have hv : (fpMul (fpMul pre suf) inv).dec = ((pts tid).Z.dec)⁻¹ := by
      rw [d_mul (r_mul a1 b1) i1, d_mul a1 b1, a2, b2, i2, ← hzt ha hf]
      exact inv_alg hne
    have hv1 : (fpMul (fpMul pre suf) inv).Red := r_mul (r_mul a1 b1) i1
    simp only [Bool.not_false, Bool.and_self, Bool.not_true, Bool.false_eq_true, if_false]
    generalize fpMul (fpMul pre suf) inv = zi at *
    refine ⟨⟨by red, by red⟩, ?_, ?_⟩
    · simp only []
      rw [d_mul hX (r_sqr hv1), d_sqr hv1, hv, hx]
      exact aff_alg hzz
    · simp only []
      rw [d_mul hY (r_mul (r_sqr hv1) hv1), d_mul (r_sqr hv1) hv1, d_sqr hv1, hv, hy]
      exact aff_alg' hzz

/-- Schedules exist, and a block can hold points of every kind: the generator, the point at infinity, an inactive thread. -/
example (m : ℕ) : Schedule (2 ^ m) (List.range (2 ^ m)).reverse := ⟨List.nodup_reverse.2 List.nodup_range, by simp⟩
example : ∃ (pts : ℕ → Jac) (Q : ℕ → E.Point), (∀ t < 2 ^ 8, RepJ (pts t) (Q t)) ∧ Q 0 ≠ 0 ∧ Q 1 = 0 := by
  obtain ⟨G, -, -, hne, h⟩ := C148_generator
  refine ⟨fun t => if t = 1 then jInf else affineToJacobian ⟨fpToMont generator.x, fpToMont generator.y⟩, fun t => if t = 1 then 0 else G, fun t _ => ?_, by simpa using hne, by simp⟩
  by_cases ht : t = 1
  · simp only [ht, if_true]; exact rep_inf
  · simp only [ht, if_false]; exact C148_lift h

end Yacl.Cuda
