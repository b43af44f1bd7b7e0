import Verif.Kernel.SilverModel
import Mathlib.Data.List.Nodup
import Mathlib.Data.List.Perm.Subperm
import Mathlib.Tactic.Push
import Mathlib.Data.Nat.ModEq

/-! Lemmas about the Silver code. -/
namespace Yacl.Silver
open Yacl.Code (xorAt Additive Correlated)

/-! ### Building the left matrix -/

theorem insertSorted_length (x : Nat) (l : List Nat) : (insertSorted x l).length = l.length + 1 := by
  induction l with
  | nil => rfl
  | cons y ys ih =>
    unfold insertSorted
    split <;> simp [ih]

theorem insertSorted_mem (x y : Nat) (l : List Nat) : y ∈ insertSorted x l ↔ y = x ∨ y ∈ l := by
  induction l with
  | nil => simp [insertSorted]
  | cons z zs ih =>
    unfold insertSorted
    split
    · simp
    · simp only [List.mem_cons, ih]
      tauto

theorem insertSorted_sorted (x : Nat) (l : List Nat) (hl : l.Pairwise (· < ·)) (hx : x ∉ l) : (insertSorted x l).Pairwise (· < ·) := by
  induction l with
  | nil => simp [insertSorted]
  | cons z zs ih =>
    rw [List.pairwise_cons] at hl
    unfold insertSorted
    split
    · rename_i h
      rw [List.pairwise_cons]
      refine ⟨fun a ha => ?_, List.pairwise_cons.mpr hl⟩
      rcases List.mem_cons.mp ha with rfl | ha
      · exact h
      · have := hl.1 a ha
        omega
    · rename_i h
      rw [List.mem_cons, not_or] at hx
      rw [List.pairwise_cons]
      refine ⟨fun a ha => ?_, ih hl.2 hx.2⟩
      rcases (insertSorted_mem _ _ _).mp ha with rfl | ha
      · omega
      · exact hl.1 a ha

/-- `m` collisions in a row, then a free place. -/
theorem probe_spec (n : Nat) (set : List Nat) (m left tmp : Nat) (hm : m < left) (ht : tmp < n) (hin : ∀ j < m, (tmp + j) % n ∈ set) (hout : (tmp + m) % n ∉ set) :
    probe n set left tmp = (insertSorted ((tmp + m) % n) set, left - m) := by
  induction m generalizing left tmp with
  | zero =>
    obtain ⟨l, rfl⟩ : ∃ l, left = l + 1 := ⟨left - 1, by omega⟩
    have e : (tmp + 0) % n = tmp := Nat.mod_eq_of_lt ht
    rw [e] at hout ⊢
    rw [probe, if_neg hout]
    rfl
  | succ m ih =>
    obtain ⟨l, rfl⟩ : ∃ l, left = l + 1 := ⟨left - 1, by omega⟩
    have h0 := hin 0 (by omega)
    rw [Nat.add_zero, Nat.mod_eq_of_lt ht] at h0
    have e : ∀ j, ((tmp + 1) % n + j) % n = (tmp + (j + 1)) % n := fun j => by
      rw [Nat.mod_add_mod]
      congr 1
      omega
    rw [probe, if_pos h0, ih l ((tmp + 1) % n) (by omega) (Nat.mod_lt _ (by omega)) (fun j hj => by rw [e]; exact hin _ (by omega)) (by rw [e]; exact hout), e]
    congr 1
    omega

/-- A set smaller than `n` leaves a free place within `set.length` collisions. -/
theorem free_place (n : Nat) (set : List Nat) (hs : set.length < n) (tmp : Nat) : ∃ m ≤ set.length, (tmp + m) % n ∉ set := by
  by_contra hc
  push Not at hc
  have hnd : ((List.range (set.length + 1)).map fun m => (tmp + m) % n).Nodup := by
    apply List.Nodup.map_on _ List.nodup_range
    intro x hx y hy hxy
    rw [List.mem_range] at hx hy
    have h : x ≡ y [MOD n] := Nat.ModEq.add_left_cancel' tmp hxy
    have := Nat.ModEq.eq_of_lt_of_lt h (by omega) (by omega)
    exact this
  have hsub : ((List.range (set.length + 1)).map fun m => (tmp + m) % n) ⊆ set := by
    intro y hy
    obtain ⟨m, hm, rfl⟩ := List.mem_map.mp hy
    rw [List.mem_range] at hm
    exact hc m (by omega)
  have := (hnd.subperm hsub).length_le
  simp at this

theorem probe_ok (n : Nat) (set : List Nat) (left tmp : Nat) (hs : set.length < n) (hl : set.length < left) (ht : tmp < n) (hsorted : set.Pairwise (· < ·)) (hlt : ∀ x ∈ set, x < n) :
    (probe n set left tmp).1.length = set.length + 1 ∧ (probe n set left tmp).1.Pairwise (· < ·) ∧ (∀ x ∈ (probe n set left tmp).1, x < n) ∧
      left ≤ (probe n set left tmp).2 + set.length := by
  obtain ⟨m0, h0, h1⟩ := free_place n set hs tmp
  have hex : ∃ m, (tmp + m) % n ∉ set := ⟨m0, h1⟩
  have hfind := Nat.find_spec hex
  have hmin := fun j (hj : j < Nat.find hex) => Nat.find_min hex hj
  have hle : Nat.find hex ≤ m0 := Nat.find_min' hex h1
  generalize Nat.find hex = m at *
  rw [probe_spec n set m left tmp (by omega) ht (fun j hj => not_not.mp (hmin j hj)) hfind]
  refine ⟨insertSorted_length _ _, insertSorted_sorted _ _ hsorted hfind, fun x hx => ?_, by simp only; omega⟩
  rcases (insertSorted_mem _ _ _).mp hx with rfl | hx
  · exact Nat.mod_lt _ (by omega)
  · exact hlt x hx

theorem probeAll_ok (n : Nat) (starts : List Nat) : ∀ (set : List Nat) (left : Nat), set.length + starts.length ≤ n → starts.length * (set.length + starts.length) < left →
    set.Pairwise (· < ·) → (∀ x ∈ set, x < n) →
    (starts.foldl (fun st s => probe n st.1 st.2 (s % n)) (set, left)).1.length = set.length + starts.length ∧
    (starts.foldl (fun st s => probe n st.1 st.2 (s % n)) (set, left)).1.Pairwise (· < ·) ∧
    ∀ x ∈ (starts.foldl (fun st s => probe n st.1 st.2 (s % n)) (set, left)).1, x < n := by
  induction starts with
  | nil => exact fun set left _ _ h1 h2 => ⟨rfl, h1, h2⟩
  | cons s ss ih =>
    intro set left hn hl h1 h2
    simp only [List.length_cons] at hn hl ⊢
    have hmul : (ss.length + 1) * (set.length + (ss.length + 1)) = ss.length * (set.length + (ss.length + 1)) + (set.length + (ss.length + 1)) := by ring
    obtain ⟨g1, g2, g3, g4⟩ := probe_ok n set left (s % n) (by omega) (by omega) (Nat.mod_lt _ (by omega)) h1 h2
    rw [List.foldl_cons]
    generalize probe n set left (s % n) = st at *
    obtain ⟨set', left'⟩ := st
    simp only at g1 g2 g3 g4
    have e : ss.length * (set'.length + ss.length) = ss.length * (set.length + (ss.length + 1)) := by rw [g1]; ring
    obtain ⟨r1, r2, r3⟩ := ih set' left' (by omega) (by omega) g2 g3
    exact ⟨by omega, r2, r3⟩

theorem initLeft_ok (n weight : Nat) (starts : List Nat) (hw : weight ≤ 11) (hs : starts.length = weight) (hn : weight ≤ n) :
    ∃ idx, initLeft n weight starts = some idx ∧ idx.length = weight ∧ idx.Pairwise (· < ·) ∧ ∀ x ∈ idx, x < n := by
  obtain ⟨r1, r2, r3⟩ := probeAll_ok n starts [] 1000 (by simp; omega) (by
    simp only [List.length_nil, Nat.zero_add, hs]
    have := Nat.mul_le_mul hw hw
    omega) List.Pairwise.nil (by simp)
  refine ⟨_, ?_, by simpa [hs] using r1, r2, r3⟩
  unfold initLeft
  rw [if_pos hs]
  simp only
  rw [if_pos (by simpa [hs] using r1)]

/-! ### Right matrix -/

theorem at_xorIdx {w : Nat} (x x' : List (BitVec w)) (i : Nat) (v : BitVec w) (h : xorIdx x i v = some x') :
    x'.length = x.length ∧ ∀ c, at_ x' c = at_ x c ^^^ if c = i then v else 0 := by
  unfold xorIdx at h
  by_cases hi : i < x.length
  · rw [if_pos hi] at h
    obtain rfl := Option.some.inj h
    refine ⟨List.length_set, fun c => ?_⟩
    unfold at_
    rw [List.getD_eq_getElem?_getD, List.getD_eq_getElem?_getD, List.getElem?_set]
    by_cases hc : i = c
    · subst hc
      simp [hi]
    · have : ¬ c = i := fun h => hc h.symm
      simp [hc, this]
  · rw [if_neg hi] at h
    exact absurd h (by simp)

theorem xorIdx_some {w : Nat} (x : List (BitVec w)) (i : Nat) (v : BitVec w) (h : i < x.length) : ∃ x', xorIdx x i v = some x' := by
  unfold xorIdx
  rw [if_pos h]
  exact ⟨_, rfl⟩

/-- What adding `v` at the places `P` does to a buffer. -/
def Adds {w : Nat} (x x' : List (BitVec w)) (v : BitVec w) (P : Nat → Prop) [DecidablePred P] : Prop :=
  x'.length = x.length ∧ ∀ c, at_ x' c = at_ x c ^^^ if P c then v else 0

theorem fastDiag_ok {w : Nat} (i gap : Nat) (tmp : BitVec w) (ds : List Nat) (hnd : ds.Nodup) (hg : ∀ d ∈ ds, d < gap) (hi : gap ≤ i) :
    ∀ x : List (BitVec w), i < x.length → ∃ x', fastDiag i gap tmp ds x = some x' ∧ x'.length = x.length ∧
      ∀ c, at_ x' c = at_ x c ^^^ if ds.any (fun d => c + gap == i + d) then tmp else 0 := by
  induction ds with
  | nil => exact fun x _ => ⟨x, rfl, rfl, fun c => by simp⟩
  | cons d ds ih =>
    intro x hx
    rw [List.nodup_cons] at hnd
    have hd := hg d (by simp)
    obtain ⟨x1, h1⟩ := xorIdx_some x (i + d - gap) tmp (by omega)
    obtain ⟨l1, a1⟩ := at_xorIdx _ _ _ _ h1
    obtain ⟨x2, h2, l2, a2⟩ := ih hnd.2 (fun d' hd' => hg d' (by simp [hd'])) x1 (by omega)
    refine ⟨x2, ?_, by omega, fun c => ?_⟩
    · simp only [fastDiag, ptr]
      rw [if_pos (by omega)]
      simp only [h1, h2]
    · rw [a2, a1]
      by_cases hc : c = i + d - gap
      · have h3 : ds.any (fun d' => c + gap == i + d') = false := by
          rw [List.any_eq_false]
          intro d' hd'
          have : d' ≠ d := fun h => hnd.1 (h ▸ hd')
          simp only [beq_iff_eq]
          omega
        have h4 : (c + gap == i + d) = true := by rw [beq_iff_eq]; omega
        rw [List.any_cons, h3, h4, if_pos hc]
        simp
      · have h4 : (c + gap == i + d) = false := by rw [beq_eq_false_iff_ne]; omega
        simp only [List.any_cons, h4, hc, if_false, Bool.false_or]
        simp

theorem toNat_idx (d i gap : Nat) (h : i + d < 2 ^ 32) (hg : gap < 2 ^ 31) :
    (BitVec.ofNat 32 d + BitVec.ofNat 32 i - BitVec.ofNat 32 gap).toNat = if gap ≤ i + d then i + d - gap else 2 ^ 32 + (i + d) - gap := by
  rw [BitVec.toNat_sub, BitVec.toNat_add, BitVec.toNat_ofNat, BitVec.toNat_ofNat, BitVec.toNat_ofNat]
  split <;> omega

theorem tailDiag_ok {w : Nat} (n i gap : Nat) (tmp : BitVec w) (ds : List Nat) (hs : ds.Pairwise (· > ·)) (hg : ∀ d ∈ ds, d < gap) (hgap : gap ≤ 32) (hn : n < 2 ^ 31) (hi : i < n) :
    ∀ x : List (BitVec w), n ≤ x.length → ∃ x', tailDiag n i gap tmp ds x = some x' ∧ x'.length = x.length ∧
      ∀ c, at_ x' c = at_ x c ^^^ if ds.any (fun d => c + gap == i + d) then tmp else 0 := by
  induction ds with
  | nil => exact fun x _ => ⟨x, rfl, rfl, fun c => by simp⟩
  | cons d ds ih =>
    intro x hx
    rw [List.pairwise_cons] at hs
    have hd := hg d (by simp)
    have e := toNat_idx d i gap (by omega) (by omega)
    by_cases hc : gap ≤ i + d
    · rw [if_pos hc] at e
      obtain ⟨x1, h1⟩ := xorIdx_some x (i + d - gap) tmp (by omega)
      obtain ⟨l1, a1⟩ := at_xorIdx _ _ _ _ h1
      obtain ⟨x2, h2, l2, a2⟩ := ih hs.2 (fun d' hd' => hg d' (by simp [hd'])) x1 (by omega)
      refine ⟨x2, ?_, by omega, fun c => ?_⟩
      · simp only [tailDiag, e]
        rw [if_neg (by omega)]
        simp only [h1, h2]
      · rw [a2, a1]
        by_cases hc' : c = i + d - gap
        · have h3 : ds.any (fun d' => c + gap == i + d') = false := by
            rw [List.any_eq_false]
            intro d' hd'
            have := hs.1 d' hd'
            simp only [beq_iff_eq]
            omega
          have h4 : (c + gap == i + d) = true := by rw [beq_iff_eq]; omega
          rw [List.any_cons, h3, h4, if_pos hc']
          simp
        · have h4 : (c + gap == i + d) = false := by rw [beq_eq_false_iff_ne]; omega
          simp only [List.any_cons, h4, hc', if_false, Bool.false_or]
          simp
    · rw [if_neg hc] at e
      refine ⟨x, ?_, rfl, fun c => ?_⟩
      · simp only [tailDiag, e]
        rw [if_pos (by omega)]
      · have h3 : (d :: ds).any (fun d' => c + gap == i + d') = false := by
          rw [List.any_eq_false]
          intro d' hd'
          simp only [beq_iff_eq]
          rcases List.mem_cons.mp hd' with rfl | hd'
          · omega
          · have := hs.1 d' hd'
            omega
        simp [h3]

/-- The rows of the band are sorted and stay inside it. -/
theorem diag_ok (weight : Nat) (hw : weight = 5 ∨ weight = 11) (k : Nat) : ((diag weight).getD k []).Pairwise (· < ·) ∧ ∀ d ∈ (diag weight).getD k [], d < gapOf weight := by
  have h5 : ∀ r ∈ diag5, r.Pairwise (· < ·) ∧ ∀ d ∈ r, d < 16 := by decide +kernel
  have h11 : ∀ r ∈ diag11, r.Pairwise (· < ·) ∧ ∀ d ∈ r, d < 32 := by decide +kernel
  have key : ∀ (t : List (List Nat)) (g : Nat), (∀ r ∈ t, r.Pairwise (· < ·) ∧ ∀ d ∈ r, d < g) → (t.getD k []).Pairwise (· < ·) ∧ ∀ d ∈ t.getD k [], d < g := by
    intro t g h
    rw [List.getD_eq_getElem?_getD]
    cases hk : t[k]? with
    | none => simp
    | some r => exact h r (List.mem_of_getElem? hk)
  rcases hw with rfl | rfl
  · exact key diag5 16 h5
  · exact key diag11 32 h11

theorem and_gap (weight i : Nat) (hw : weight = 5 ∨ weight = 11) : i &&& (gapOf weight - 1) = i % gapOf weight := by
  rcases hw with rfl | rfl
  · exact Nat.and_two_pow_sub_one_eq_mod i 4
  · exact Nat.and_two_pow_sub_one_eq_mod i 5

theorem gap_le (weight : Nat) (hw : weight = 5 ∨ weight = 11) : 16 ≤ gapOf weight ∧ gapOf weight ≤ 32 := by
  rcases hw with rfl | rfl <;> exact ⟨by decide, by decide⟩

theorem below_eq (weight i c : Nat) (hw : weight = 5 ∨ weight = 11) {w : Nat} (v : BitVec w) :
    (if below weight i c then v else 0) = (if ((diag weight).getD (i % gapOf weight) []).any (fun d => c + gapOf weight == i + d) then v else 0) ^^^
      (if c + gapOf weight + 5 = i then v else 0) ^^^ (if c + gapOf weight + 31 = i then v else 0) := by
  unfold below
  by_cases h0 : ((diag weight).getD (i % gapOf weight) []).any (fun d => c + gapOf weight == i + d) = true
  · obtain ⟨d, hd, hd'⟩ := List.any_eq_true.mp h0
    rw [beq_iff_eq] at hd'
    rw [if_pos (by rw [h0]; rfl), if_pos h0, if_neg (by omega), if_neg (by omega)]
    simp
  · rw [if_neg h0]
    rw [Bool.not_eq_true] at h0
    rw [h0]
    by_cases h1 : c + gapOf weight + 5 = i
    · rw [if_pos (by simp [h1]), if_pos h1, if_neg (by omega)]
      simp
    · by_cases h2 : c + gapOf weight + 31 = i
      · rw [if_pos (by simp [h2]), if_neg h1, if_pos h2]
        simp
      · rw [if_neg (by simp [h1, h2]), if_neg h1, if_neg h2]
        simp

theorem below_lt (weight i c : Nat) (hw : weight = 5 ∨ weight = 11) (h : below weight i c = true) : c < i := by
  unfold below at h
  rw [Bool.or_eq_true, Bool.or_eq_true] at h
  have hg := gap_le weight hw
  rcases h with (h | h) | h
  · obtain ⟨d, hd, hd'⟩ := List.any_eq_true.mp h
    rw [beq_iff_eq] at hd'
    have := (diag_ok weight hw _).2 d hd
    omega
  · rw [beq_iff_eq] at h
    omega
  · rw [beq_iff_eq] at h
    omega

/-- One step of the back substitution. -/
def Step {w : Nat} (weight i : Nat) (x x' : List (BitVec w)) : Prop := x'.length = x.length ∧ ∀ c, at_ x' c = at_ x c ^^^ if below weight i c then at_ x i else 0

/-- The steps `n - 1, …, k`. -/
inductive Steps {w : Nat} (weight : Nat) (n : Nat) : Nat → List (BitVec w) → List (BitVec w) → Prop
  | nil (x) : Steps weight n n x x
  | step (k x y z) : Steps weight n (k + 1) x y → Step weight k y z → Steps weight n k x z

/-- The value of an offset when the loop is at `k = i + 1`: `i - gap - r` in 32 bits, and once it has wrapped around it is not below `n` any more. -/
def OffOk (n gap r k : Nat) (o : BitVec 32) : Prop := if gap + r + 1 ≤ k then o.toNat = k - 1 - gap - r else n ≤ o.toNat

theorem offset_ok (n gap r : Nat) (hn : n < 2 ^ 31) (hg : gap ≤ 32) (hr : r ≤ 31) : OffOk n gap r n (offset n gap r) := by
  unfold OffOk offset
  rw [BitVec.toNat_sub, BitVec.toNat_sub, BitVec.toNat_sub, BitVec.toNat_ofNat, BitVec.toNat_ofNat, BitVec.toNat_ofNat]
  have h1 : (1 : BitVec 32).toNat = 1 := rfl
  rw [h1]
  split <;> omega

theorem off_dec (n gap r k : Nat) (o : BitVec 32) (hk : k < n) (hn : n < 2 ^ 31) (h : OffOk n gap r (k + 1) o) (ho : gap + r ≤ k) : OffOk n gap r k (o - 1) := by
  unfold OffOk at h ⊢
  have h1 : (1 : BitVec 32).toNat = 1 := rfl
  rw [if_pos (by omega)] at h
  rw [BitVec.toNat_sub, h1]
  split <;> omega

theorem tailOff_ok {w : Nat} (n gap r k : Nat) (tmp : BitVec w) (x : List (BitVec w)) (o : BitVec 32) (hk : k < n) (hn : n < 2 ^ 31) (hx : n ≤ x.length) (h : OffOk n gap r (k + 1) o) :
    ∃ x' o', tailOff n tmp x o = some (x', o') ∧ OffOk n gap r k o' ∧ x'.length = x.length ∧ ∀ c, at_ x' c = at_ x c ^^^ if c + gap + r = k then tmp else 0 := by
  unfold tailOff
  by_cases hc : gap + r ≤ k
  · have h' := h
    unfold OffOk at h'
    rw [if_pos (by omega)] at h'
    obtain ⟨x1, h1⟩ := xorIdx_some x o.toNat tmp (by omega)
    obtain ⟨l1, a1⟩ := at_xorIdx _ _ _ _ h1
    rw [if_pos (by omega), h1]
    refine ⟨x1, o - 1, rfl, off_dec _ _ _ _ _ hk hn h hc, l1, fun c => ?_⟩
    rw [a1]
    congr 1
    apply if_congr _ rfl rfl
    omega
  · unfold OffOk at h
    rw [if_neg (by omega)] at h
    rw [if_neg (by omega)]
    refine ⟨x, o, rfl, ?_, rfl, fun c => ?_⟩
    · unfold OffOk
      rw [if_neg (by omega)]
      exact h
    · rw [if_neg (by omega)]
      simp

theorem fast_ok {w : Nat} (n weight : Nat) (hw : weight = 5 ∨ weight = 11) (hn : n < 2 ^ 31) (x0 : List (BitVec w)) : ∀ (k : Nat) (x : List (BitVec w)) (o0 o1 : BitVec 32),
    k ≤ n → n ≤ x.length → Steps weight n k x0 x → OffOk n (gapOf weight) 5 k o0 → OffOk n (gapOf weight) 31 k o1 →
    ∃ k' x' o0' o1', fast weight (gapOf weight) k x o0 o1 = some (k', x', o0', o1') ∧ k' ≤ n ∧ x'.length = x.length ∧ Steps weight n k' x0 x' ∧
      OffOk n (gapOf weight) 5 k' o0' ∧ OffOk n (gapOf weight) 31 k' o1' := by
  intro k
  induction k with
  | zero => exact fun x o0 o1 h1 h2 h3 h4 h5 => ⟨0, x, o0, o1, rfl, h1, rfl, h3, h4, h5⟩
  | succ i ih =>
    intro x o0 o1 h1 h2 h3 h4 h5
    rw [fast]
    by_cases hc : i > max 5 31 + gapOf weight
    · have hc' : i > 31 + gapOf weight := by simpa using hc
      rw [if_pos hc]
      simp only
      have h4' := h4
      have h5' := h5
      unfold OffOk at h4' h5'
      rw [if_pos (by omega)] at h4' h5'
      obtain ⟨x1, e1, l1, a1⟩ := fastDiag_ok i (gapOf weight) (at_ x i) ((diag weight).getD (i &&& (gapOf weight - 1)) [])
        (((diag_ok weight hw _).1).imp (fun h => Nat.ne_of_lt h)) (diag_ok weight hw _).2 (by omega) x (by omega)
      obtain ⟨x2, e2⟩ := xorIdx_some x1 o0.toNat (at_ x i) (by omega)
      obtain ⟨l2, a2⟩ := at_xorIdx _ _ _ _ e2
      obtain ⟨x3, e3⟩ := xorIdx_some x2 o1.toNat (at_ x i) (by omega)
      obtain ⟨l3, a3⟩ := at_xorIdx _ _ _ _ e3
      have hst : Step weight i x x3 := by
        refine ⟨by omega, fun c => ?_⟩
        rw [a3, a2, a1, and_gap weight i hw, below_eq weight i c hw, BitVec.xor_assoc, BitVec.xor_assoc, BitVec.xor_assoc]
        congr 2
        congr 1
        · apply if_congr _ rfl rfl
          omega
        · apply if_congr _ rfl rfl
          omega
      obtain ⟨k', x', p0, p1, r1, r2, r3, r4, r5, r6⟩ := ih x3 (o0 - 1) (o1 - 1) (by omega) (by omega) (Steps.step _ _ _ _ h3 hst)
        (off_dec _ _ _ _ _ (by omega) hn h4 (by omega)) (off_dec _ _ _ _ _ (by omega) hn h5 (by omega))
      refine ⟨k', x', p0, p1, ?_, r2, by omega, r4, r5, r6⟩
      unfold at_ at e1 e2 e3
      simp only [e1, e2, e3, r1]
    · rw [if_neg hc]
      exact ⟨i + 1, x, o0, o1, rfl, h1, rfl, h3, h4, h5⟩

theorem tail_ok {w : Nat} (n weight : Nat) (hw : weight = 5 ∨ weight = 11) (hn : n < 2 ^ 31) (x0 : List (BitVec w)) : ∀ (k : Nat) (x : List (BitVec w)) (o0 o1 : BitVec 32),
    k ≤ n → n ≤ x.length → Steps weight n k x0 x → OffOk n (gapOf weight) 5 k o0 → OffOk n (gapOf weight) 31 k o1 →
    ∃ x', tail n weight (gapOf weight) k x o0 o1 = some x' ∧ x'.length = x.length ∧ Steps weight n 0 x0 x' := by
  intro k
  induction k with
  | zero => exact fun x o0 o1 h1 h2 h3 h4 h5 => ⟨x, rfl, rfl, h3⟩
  | succ i ih =>
    intro x o0 o1 h1 h2 h3 h4 h5
    rw [tail]
    obtain ⟨x1, e1, l1, a1⟩ := tailDiag_ok n i (gapOf weight) (at_ x i) ((diag weight).getD (i &&& (gapOf weight - 1)) []).reverse
      (List.pairwise_reverse.mpr (diag_ok weight hw _).1) (fun d hd => (diag_ok weight hw _).2 d (List.mem_reverse.mp hd)) (gap_le weight hw).2 hn (by omega) x h2
    obtain ⟨x2, p0, e2, q0, l2, a2⟩ := tailOff_ok n (gapOf weight) 5 i (at_ x i) x1 o0 (by omega) hn (by omega) h4
    obtain ⟨x3, p1, e3, q1, l3, a3⟩ := tailOff_ok n (gapOf weight) 31 i (at_ x i) x2 o1 (by omega) hn (by omega) h5
    have hst : Step weight i x x3 := by
      refine ⟨by omega, fun c => ?_⟩
      rw [a3, a2, a1, and_gap weight i hw, below_eq weight i c hw, List.any_reverse, BitVec.xor_assoc, BitVec.xor_assoc, BitVec.xor_assoc]
    obtain ⟨x', r1, r2, r3⟩ := ih x3 p0 p1 (by omega) (by omega) (Steps.step _ _ _ _ h3 hst) q0 q1
    refine ⟨x', ?_, by omega, r3⟩
    unfold at_ at e1 e2 e3
    simp only [e1, e2, e3, r1]

theorem rightEncode_steps {w : Nat} (c : Code) (hw : c.weight = 5 ∨ c.weight = 11) (hn : c.n < 2 ^ 31) (x : List (BitVec w)) (hx : c.n ≤ x.length) :
    ∃ x', rightEncode c x = some x' ∧ x'.length = x.length ∧ Steps c.weight c.n 0 x x' := by
  have hg := gap_le c.weight hw
  obtain ⟨k, x1, o0, o1, e1, h1, h2, h3, h4, h5⟩ := fast_ok c.n c.weight hw hn x c.n x _ _ (Nat.le_refl _) hx (Steps.nil x) (offset_ok c.n (gapOf c.weight) 5 hn hg.2 (by omega))
    (offset_ok c.n (gapOf c.weight) 31 hn hg.2 (by omega))
  obtain ⟨x2, e2, h6, h7⟩ := tail_ok c.n c.weight hw hn x k x1 o0 o1 h1 (by omega) h3 h4 h5
  refine ⟨x2, ?_, by omega, h7⟩
  unfold rightEncode
  simp only
  rw [if_pos hx, e1]
  exact e2

/-! ### Sums -/

/-- Xor of `f i` for `k ≤ i < n`. -/
def xsum {w : Nat} (f : Nat → BitVec w) (n : Nat) : BitVec w := ((List.range n).map f).foldr (· ^^^ ·) 0

theorem foldr_xor {w : Nat} (l : List (BitVec w)) (a : BitVec w) : l.foldr (· ^^^ ·) a = l.foldr (· ^^^ ·) 0 ^^^ a := by
  induction l with
  | nil => simp
  | cons x xs ih => rw [List.foldr_cons, List.foldr_cons, ih, BitVec.xor_assoc]

theorem xsum_succ {w : Nat} (f : Nat → BitVec w) (n : Nat) : xsum f (n + 1) = xsum f n ^^^ f n := by
  unfold xsum
  rw [List.range_succ, List.map_append, List.foldr_append, foldr_xor]
  simp

theorem xsum_congr {w : Nat} (f g : Nat → BitVec w) (n : Nat) (h : ∀ i < n, f i = g i) : xsum f n = xsum g n := by
  unfold xsum
  congr 1
  exact List.map_congr_left fun i hi => h i (List.mem_range.mp hi)

theorem xsum_zero {w : Nat} (f : Nat → BitVec w) (n : Nat) (h : ∀ i < n, f i = 0) : xsum f n = 0 := by
  induction n with
  | zero => rfl
  | succ n ih =>
    rw [xsum_succ, ih fun i hi => h i (by omega), h n (by omega)]
    simp

theorem xsum_xor {w : Nat} (f g : Nat → BitVec w) (n : Nat) : xsum (fun i => f i ^^^ g i) n = xsum f n ^^^ xsum g n := by
  induction n with
  | zero => simp [xsum]
  | succ n ih =>
    rw [xsum_succ, xsum_succ, xsum_succ, ih]
    ac_rfl

theorem xsum_single {w : Nat} (f : Nat → BitVec w) (n c : Nat) (hc : c < n) : xsum (fun i => if c = i then f i else 0) n = f c := by
  induction n with
  | zero => omega
  | succ n ih =>
    rw [xsum_succ]
    by_cases h : c = n
    · subst h
      rw [xsum_zero _ _ (fun i hi => if_neg (by omega)), if_pos rfl]
      simp
    · rw [ih (by omega), if_neg h]
      simp

theorem xsum_map {v w : Nat} (g : BitVec v → BitVec w) (hg : Additive g) (f : Nat → BitVec v) (n : Nat) : g (xsum f n) = xsum (fun i => g (f i)) n := by
  have h0 : g 0 = 0 := by
    have := hg 0 0
    simpa using this
  induction n with
  | zero => exact h0
  | succ n ih => rw [xsum_succ, xsum_succ, hg, ih]

theorem mulMat_eq {w : Nat} (n : Nat) (M : Nat → Nat → Bool) (x : Nat → BitVec w) (c : Nat) : mulMat n M x c = xsum (fun i => if M i c then x i else 0) n := rfl

/-- Entries `i` with `k ≤ i`. -/
theorem steps_inv {w : Nat} (weight n : Nat) (hw : weight = 5 ∨ weight = 11) (k : Nat) (x z : List (BitVec w)) (h : Steps weight n k x z) :
    z.length = x.length ∧ k ≤ n ∧ ∀ c, at_ z c = at_ x c ^^^ xsum (fun i => if k ≤ i ∧ below weight i c then at_ z i else 0) n := by
  induction h with
  | nil x =>
    refine ⟨rfl, Nat.le_refl _, fun c => ?_⟩
    rw [xsum_zero _ _ (fun i hi => if_neg (by omega))]
    simp
  | step k x y z hs hst ih =>
    obtain ⟨i1, i2, i3⟩ := ih
    obtain ⟨s1, s2⟩ := hst
    refine ⟨by omega, by omega, fun c => ?_⟩
    have hsame : ∀ i, k ≤ i → at_ z i = at_ y i := by
      intro i hi
      rw [s2, if_neg (fun hb => by have := below_lt weight k i hw hb; omega)]
      simp
    rw [s2, i3, BitVec.xor_assoc]
    congr 1
    have e1 : xsum (fun i => if k + 1 ≤ i ∧ below weight i c then at_ y i else 0) n = xsum (fun i => if k + 1 ≤ i ∧ below weight i c then at_ z i else 0) n := by
      apply xsum_congr
      intro i _
      by_cases hh : k + 1 ≤ i ∧ below weight i c
      · rw [if_pos hh, if_pos hh, hsame i (by omega)]
      · rw [if_neg hh, if_neg hh]
    have e2 : (if below weight k c then at_ y k else 0) = xsum (fun i => if k = i then (if below weight i c then at_ z i else 0) else 0) n := by
      rw [xsum_single _ _ _ (by omega), hsame k (Nat.le_refl _)]
    rw [e1, e2, ← xsum_xor]
    apply xsum_congr
    intro i _
    by_cases h1 : k = i
    · subst h1
      rw [if_neg (by omega), if_pos rfl]
      by_cases h2 : below weight k c = true
      · simp [h2]
      · simp [h2]
    · by_cases h2 : k + 1 ≤ i
      · have : k ≤ i := by omega
        simp [h1, h2, this]
      · have : ¬ k ≤ i := by omega
        simp [h1, h2, this]

theorem mulR_eq {w : Nat} (weight n : Nat) (hw : weight = 5 ∨ weight = 11) (x : Nat → BitVec w) (c : Nat) (hc : c < n) :
    mulMat n (R weight) x c = x c ^^^ xsum (fun i => if below weight i c then x i else 0) n := by
  have e : x c = xsum (fun i => if c = i then x i else 0) n := (xsum_single x n c hc).symm
  rw [mulMat_eq]
  conv_rhs => rw [e]
  rw [← xsum_xor]
  apply xsum_congr
  intro i hi
  unfold R
  by_cases h1 : c = i
  · subst h1
    have h2 : below weight c c = false := by
      rw [Bool.eq_false_iff]
      intro hb
      have := below_lt weight c c hw hb
      omega
    simp [h2]
  · simp [h1]

/-- `x * R = y` has at most one solution. -/
theorem mulR_unique {w : Nat} (weight n : Nat) (hw : weight = 5 ∨ weight = 11) (x y : Nat → BitVec w) (h : ∀ c < n, mulMat n (R weight) x c = mulMat n (R weight) y c) : ∀ c < n, x c = y c := by
  have key : ∀ k c, n - c ≤ k → c < n → x c = y c := by
    intro k
    induction k with
    | zero => intro c h1 h2; omega
    | succ k ih =>
      intro c h1 h2
      have hc := h c h2
      rw [mulR_eq weight n hw x c h2, mulR_eq weight n hw y c h2] at hc
      have e : xsum (fun i => if below weight i c then x i else 0) n = xsum (fun i => if below weight i c then y i else 0) n := by
        apply xsum_congr
        intro i hi
        by_cases hb : below weight i c = true
        · have := below_lt weight i c hw hb
          rw [if_pos hb, if_pos hb, ih i (by omega) hi]
        · rw [if_neg hb, if_neg hb]
      rw [e] at hc
      exact (BitVec.xor_left_inj _).mp hc
  exact fun c hc => key n c (by omega) hc

/-! ### Left matrix -/

instance xor_lc {w : Nat} : LeftCommutative (fun x y : BitVec w => x ^^^ y) := ⟨fun a b c => by ac_rfl⟩

/-- Xor of the elements `x i` for `i` in the list. -/
def xlist {w : Nat} (x : Nat → BitVec w) (l : List Nat) : BitVec w := (l.map x).foldr (· ^^^ ·) 0

theorem xlist_perm {w : Nat} (x : Nat → BitVec w) (l l' : List Nat) (h : l.Perm l') : xlist x l = xlist x l' := (h.map x).foldr_eq _

theorem leftOne_ok {w : Nat} (inp : List (BitVec w)) (t : Nat) (es : List Nat) (h : ∀ e ∈ es, e + t < inp.length) (a : BitVec w) :
    leftOne inp t es a = some (a ^^^ xlist (at_ inp) (es.map (· + t))) := by
  induction es generalizing a with
  | nil => simp [leftOne, xlist]
  | cons e es ih =>
    have he := h e (by simp)
    rw [leftOne, List.getElem?_eq_getElem he]
    simp only
    rw [ih (fun e' he' => h e' (by simp [he']))]
    have : inp[e + t] = at_ inp (e + t) := by
      unfold at_
      rw [List.getD_eq_getElem?_getD, List.getElem?_eq_getElem he]
      rfl
    rw [this, BitVec.xor_assoc]
    rfl

theorem leftChunk_ok {w : Nat} (inp : List (BitVec w)) (es : List Nat) (i : Nat) (k t : Nat) (out : List (BitVec w)) (h : ∀ e ∈ es, e + t + k ≤ inp.length) (ho : i + t + k ≤ out.length) :
    ∃ out', leftChunk inp es i k t out = some out' ∧ out'.length = out.length ∧
      ∀ c, at_ out' c = at_ out c ^^^ if i + t ≤ c ∧ c < i + t + k then xlist (at_ inp) (es.map (· + (c - i))) else 0 := by
  induction k generalizing t out with
  | zero =>
    refine ⟨out, rfl, rfl, fun c => ?_⟩
    rw [if_neg (by omega)]
    simp
  | succ k ih =>
    have h1 : i + t < out.length := by omega
    obtain ⟨out', e1, e2, e3⟩ := ih (t + 1) (out.set (i + t) (out[i + t] ^^^ xlist (at_ inp) (es.map (· + t)))) (fun e he => by have := h e he; omega) (by rw [List.length_set]; omega)
    refine ⟨out', ?_, by rw [e2, List.length_set], fun c => ?_⟩
    · rw [leftChunk, List.getElem?_eq_getElem h1]
      simp only
      rw [leftOne_ok inp t es (fun e he => by have := h e he; omega)]
      exact e1
    · rw [e3]
      by_cases hc : c = i + t
      · subst hc
        have e4 : i + t - i = t := by omega
        rw [if_neg (by omega), if_pos (by omega), e4]
        unfold at_
        rw [List.getD_eq_getElem?_getD, List.getD_eq_getElem?_getD, List.getElem?_set, List.getElem?_eq_getElem h1]
        simp [h1]
      · have e4 : at_ (out.set (i + t) (out[i + t] ^^^ xlist (at_ inp) (es.map (· + t)))) c = at_ out c := by
          unfold at_
          rw [List.getD_eq_getElem?_getD, List.getD_eq_getElem?_getD, List.getElem?_set, if_neg (fun h => hc h.symm)]
        rw [e4]
        congr 1
        apply if_congr _ rfl rfl
        omega

theorem leftLoop_done {w : Nat} (n : Nat) (inp out : List (BitVec w)) (fuel : Nat) (es : List Nat) : leftLoop n inp fuel es n out = some out := by
  cases fuel <;> rw [leftLoop, if_neg (by omega)]

theorem leftLoop_ok {w : Nat} (n : Nat) (inp : List (BitVec w)) (hin : n ≤ inp.length) (idx : List Nat) (hidx : idx ≠ []) : ∀ (fuel : Nat) (es : List Nat) (i : Nat) (out : List (BitVec w)),
    n ≤ fuel + i → i < n → n ≤ out.length → es.Pairwise (· < ·) → (∀ e ∈ es, e < n) → es.Perm (idx.map fun j => (j + i) % n) →
    ∃ out', leftLoop n inp fuel es i out = some out' ∧ out'.length = out.length ∧
      ∀ c, at_ out' c = at_ out c ^^^ if i ≤ c ∧ c < n then xlist (at_ inp) (idx.map fun j => (j + c) % n) else 0 := by
  intro fuel
  induction fuel with
  | zero => intro es i out h1 h2; omega
  | succ fuel ih =>
    intro es i out hf hi ho hs hlt hp
    have hne : es ≠ [] := by
      intro h
      rw [h] at hp
      exact hidx (List.map_eq_nil_iff.mp hp.symm.eq_nil)
    have hsplit := List.dropLast_append_getLast hne
    generalize hinit : es.dropLast = init at hsplit
    generalize hmx : es.getLast hne = mx at hsplit
    subst hsplit
    have hmxlt : mx < n := hlt mx (by simp)
    rw [List.pairwise_append] at hs
    have hinitlt : ∀ e ∈ init, e < mx := fun e he => hs.2.2 e he mx (by simp)
    have hle : ∀ e ∈ init ++ [mx], e ≤ mx := by
      intro e he
      rcases List.mem_append.mp he with he | he
      · exact Nat.le_of_lt (hinitlt e he)
      · simp at he; omega
    rw [leftLoop, if_pos hi, List.getLast?_concat]
    simp only
    rw [if_pos (by rw [List.all_eq_true]; intro e he; simpa using hle e he)]
    generalize hst : min (n - mx) (n - i) = step
    have hstep1 : 0 < step := by omega
    have hstep2 : mx + step ≤ n := by omega
    have hstep3 : i + step ≤ n := by omega
    obtain ⟨out1, e1, l1, a1⟩ := leftChunk_ok inp (init ++ [mx]) i step 0 out (fun e he => by have := hle e he; omega) (by omega)
    simp only [e1]
    have hchunk : ∀ c, i ≤ c → c < i + step → xlist (at_ inp) ((init ++ [mx]).map (· + (c - i))) = xlist (at_ inp) (idx.map fun j => (j + c) % n) := by
      intro c h1 h2
      apply xlist_perm
      refine (hp.map (· + (c - i))).trans ?_
      rw [List.map_map]
      apply List.Perm.of_eq
      apply List.map_congr_left
      intro j hj
      have hmem : (j + i) % n ∈ init ++ [mx] := hp.mem_iff.mpr (List.mem_map.mpr ⟨j, hj, rfl⟩)
      have hb := hle _ hmem
      show (j + i) % n + (c - i) = (j + c) % n
      have : ((j + i) % n + (c - i)) % n = (j + c) % n := by
        rw [Nat.mod_add_mod]
        congr 1
        omega
      exact (Nat.mod_eq_of_lt (by omega)).symm.trans this
    by_cases hend : i + step = n
    · rw [hend, leftLoop_done]
      refine ⟨out1, rfl, l1, fun c => ?_⟩
      rw [a1]
      congr 1
      by_cases hc : i ≤ c ∧ c < n
      · rw [if_pos (by omega), if_pos hc, hchunk c hc.1 (by omega)]
      · rw [if_neg (by omega), if_neg hc]
    · have hmap : (List.map (fun x => x + step) (init ++ [mx])).dropLast = init.map (· + step) := by
        rw [List.map_append, List.map_cons, List.map_nil, List.dropLast_concat]
      rw [hmap]
      obtain ⟨out2, e2, l2, a2⟩ := ih (0 :: init.map (· + step)) (i + step) out1 (by omega) (by omega) (by omega)
        (by
          rw [List.pairwise_cons]
          refine ⟨fun a ha => ?_, ?_⟩
          · obtain ⟨e, -, rfl⟩ := List.mem_map.mp ha
            omega
          · rw [List.pairwise_map]
            exact hs.1.imp (fun h => by omega))
        (by
          intro e he
          rcases List.mem_cons.mp he with rfl | he
          · omega
          · obtain ⟨e', he', rfl⟩ := List.mem_map.mp he
            have := hinitlt e' he'
            omega)
        (by
          have h1 : (idx.map fun j => (j + (i + step)) % n) = (idx.map fun j => (j + i) % n).map (fun e => (e + step) % n) := by
            rw [List.map_map]
            apply List.map_congr_left
            intro j _
            show _ = ((j + i) % n + step) % n
            rw [Nat.mod_add_mod]
            congr 1
            omega
          have h2 : (init ++ [mx]).map (fun e => (e + step) % n) = init.map (· + step) ++ [0] := by
            rw [List.map_append]
            congr 1
            · apply List.map_congr_left
              intro e he
              have := hinitlt e he
              exact Nat.mod_eq_of_lt (by omega)
            · have : mx + step = n := by omega
              simp [this]
          rw [h1]
          refine List.Perm.trans ?_ (hp.map _)
          rw [h2]
          exact (List.perm_append_singleton 0 _).symm)
      refine ⟨out2, e2, by omega, fun c => ?_⟩
      rw [a2, a1, BitVec.xor_assoc]
      congr 1
      by_cases hc1 : i ≤ c ∧ c < i + step
      · rw [if_pos (by omega), if_neg (by omega), if_pos (by omega), hchunk c hc1.1 hc1.2]
        simp
      · rw [if_neg (by omega)]
        by_cases hc2 : i + step ≤ c ∧ c < n
        · rw [if_pos hc2, if_pos (by omega)]
          simp
        · rw [if_neg hc2, if_neg (by omega)]
          simp

theorem mulL_eq {w : Nat} (n : Nat) (idx : List Nat) (hnd : idx.Nodup) (hlt : ∀ j ∈ idx, j < n) (hn : 0 < n) (x : Nat → BitVec w) (c : Nat) :
    mulMat n (L n idx) x c = xlist x (idx.map fun j => (j + c) % n) := by
  rw [mulMat_eq]
  induction idx with
  | nil => exact xsum_zero _ _ (fun i _ => by simp [L])
  | cons j js ih =>
    rw [List.nodup_cons] at hnd
    have e1 : xlist x ((j :: js).map fun j => (j + c) % n) = x ((j + c) % n) ^^^ xlist x (js.map fun j => (j + c) % n) := rfl
    rw [e1, ← ih hnd.2 (fun j' hj' => hlt j' (by simp [hj'])), ← xsum_single x n ((j + c) % n) (Nat.mod_lt _ hn), ← xsum_xor]
    apply xsum_congr
    intro i _
    unfold L
    rw [List.any_cons]
    by_cases h1 : (j + c) % n = i
    · have h2 : (js.any fun j => (j + c) % n == i) = false := by
        rw [List.any_eq_false]
        intro j' hj'
        rw [beq_iff_eq]
        intro h3
        have h4 : j' ≡ j [MOD n] := Nat.ModEq.add_right_cancel' c (h3.trans h1.symm)
        have := Nat.ModEq.eq_of_lt_of_lt h4 (hlt j' (by simp [hj'])) (hlt j (by simp))
        exact hnd.1 (this ▸ hj')
      rw [h2]
      simp [h1]
    · simp [h1]

theorem leftEncode_ok {w : Nat} (c : Code) (hw : c.weight = 5 ∨ c.weight = 11) (hl : c.idx.length = c.weight) (hs : c.idx.Pairwise (· < ·)) (hlt : ∀ j ∈ c.idx, j < c.n)
    (inp out : List (BitVec w)) (hi : c.n ≤ inp.length) (ho : c.n ≤ out.length) :
    ∃ out', leftEncode c inp out = some out' ∧ out'.length = out.length ∧ ∀ k, at_ out' k = at_ out k ^^^ if k < c.n then mulMat c.n (L c.n c.idx) (at_ inp) k else 0 := by
  have hne : c.idx ≠ [] := by
    intro h
    rw [h] at hl
    simp only [List.length_nil] at hl
    omega
  obtain ⟨j0, hj0⟩ := List.exists_mem_of_ne_nil _ hne
  have hn : 0 < c.n := by have := hlt j0 hj0; omega
  obtain ⟨out', e1, e2, e3⟩ := leftLoop_ok c.n inp hi c.idx hne c.n c.idx 0 out (by omega) hn ho hs hlt (by
    apply List.Perm.of_eq
    symm
    conv_rhs => rw [← List.map_id c.idx]
    apply List.map_congr_left
    intro j hj
    exact Nat.mod_eq_of_lt (hlt j hj))
  refine ⟨out', ?_, e2, fun k => ?_⟩
  · unfold leftEncode
    rw [if_pos ⟨hi, ho, hl, hw⟩, e1]
  · rw [e3]
    congr 1
    by_cases hk : k < c.n
    · rw [if_pos (by omega), if_pos hk, mulL_eq c.n c.idx (hs.imp (fun h => Nat.ne_of_lt h)) hlt hn]
    · rw [if_neg (by omega), if_neg hk]
