import Verif.SegmentTree.Lemmas

/-! Property theorems C01, C02 (see /verif/properties.jsonl). -/
namespace Yacl.SegmentTree
open Spec

/-- Generalised refinement, from any well-formed tree whose id set is that of `seen`. -/
theorem run_refines (xs : List Nat) : ∀ (t : Tree) (seen : List Nat),
    (∀ x ∈ xs, x < 2 ^ 64 - 1) →
    Separated t.segments → (∀ y, Covers t.segments y ↔ y ∈ seen) → t.count = distinct seen →
    Separated (run t xs).1.segments ∧
    (∀ y, Covers (run t xs).1.segments y ↔ y ∈ xs.reverse ++ seen) ∧
    (run t xs).1.count = distinct (xs.reverse ++ seen) ∧
    (run t xs).2 = newFlags seen xs := by
  induction xs with
  | nil => intro t seen _ h1 h2 h3; simpa [run, newFlags] using ⟨h1, h2, h3⟩
  | cons x xs ih =>
    intro t seen hb h1 h2 h3
    obtain ⟨g1, g2, g3, g4⟩ := insert_spec t x h1 (hb x (by simp))
    have hf : (insert t x).2 = ! decide (x ∈ seen) := by
      rw [Bool.eq_iff_iff, g3, h2 x]; simp
    have hc : (insert t x).1.count = distinct (x :: seen) := by
      rw [g4, hf, h3, distinct_cons]
      by_cases hm : x ∈ seen <;> simp [hm]
    obtain ⟨k1, k2, k3, k4⟩ := ih (insert t x).1 (x :: seen) (fun y hy => hb y (by simp [hy])) g1
      (by intro y; rw [g2 y, h2 y]; simp; exact Or.comm) hc
    simp only [run, newFlags]
    refine ⟨k1, ?_, ?_, ?_⟩
    · intro y; rw [k2 y]; simp
    · rw [k3]; simp
    · rw [k4, hf]

/-- **C01.** After any history of `Insert` calls on an empty tree (ids below `2^64 - 1`, so that `id + 1` is
representable): membership, the distinct count, the returned flags and the shape of the segments are those of the plain
set of inserted ids. -/
theorem C01_segment_tree_is_exact_set (xs : List Nat) (hb : ∀ x ∈ xs, x < 2 ^ 64 - 1) :
    (∀ y, contains (run empty xs).1 y = true ↔ y ∈ xs) ∧
    count (run empty xs).1 = distinct xs ∧
    (run empty xs).2 = newFlags [] xs ∧
    Separated (getSegments (run empty xs).1) ∧
    (∀ y, Covers (getSegments (run empty xs).1) y ↔ y ∈ xs) ∧
    segmentsCount (run empty xs).1 = (getSegments (run empty xs).1).length := by
  obtain ⟨h1, h2, h3, h4⟩ := run_refines xs empty [] hb sep_nil (by simp [empty, covers_nil]) rfl
  refine ⟨?_, by simpa [count, distinct_reverse] using h3, h4, h1, ?_, rfl⟩
  · intro y; rw [contains_iff _ h1, h2 y]; simp
  · intro y; simpa [getSegments] using h2 y

/-- Non-vacuity: a history with out-of-order, adjacent and duplicate ids. -/
example : (∀ x ∈ [5, 3, 4, 9, 3], x < 2 ^ 64 - 1) ∧
    getSegments (run empty [5, 3, 4, 9, 3]).1 = [(3, 6), (9, 10)] := by decide

/-- The bound on ids is needed: the largest `size_t` id is inserted but not found afterwards (`item + 1` wraps to 0). -/
theorem C01_max_id_violated :
    (run empty [2 ^ 64 - 1]).2 = [true] ∧ contains (run empty [2 ^ 64 - 1]).1 (2 ^ 64 - 1) = false := by decide

/-- **C02.** If the recorded ids form at most one segment and contain `1` and `n`, all of `1..n` have been inserted. -/
theorem C02_one_segment_means_all_arrived (xs : List Nat) (hb : ∀ x ∈ xs, x < 2 ^ 64 - 1) (n : Nat)
    (hseg : segmentsCount (run empty xs).1 ≤ 1)
    (h1 : contains (run empty xs).1 1 = true) (hn : contains (run empty xs).1 n = true) :
    ∀ k, 1 ≤ k → k ≤ n → k ∈ xs := by
  obtain ⟨hc, _, _, hs, hcov, _⟩ := C01_segment_tree_is_exact_set xs hb
  intro k hk1 hkn
  have c1 := (hcov 1).2 ((hc 1).1 h1)
  have cn := (hcov n).2 ((hc n).1 hn)
  rw [← hcov k]
  obtain ⟨s, hs1, ha, hb'⟩ := c1
  obtain ⟨s', hs2, ha', hb''⟩ := cn
  have hl : (getSegments (run empty xs).1).length ≤ 1 := hseg
  match hg : getSegments (run empty xs).1, hl with
  | [], _ => rw [hg] at hs1; simp at hs1
  | [a], _ =>
    rw [hg] at hs1 hs2
    simp at hs1 hs2
    rw [hs1] at ha hb'; rw [hs2] at ha' hb''
    exact ⟨a, by simp, by omega, by omega⟩

example : segmentsCount (run empty [2, 1, 3]).1 ≤ 1 ∧ contains (run empty [2, 1, 3]).1 1 = true ∧
    contains (run empty [2, 1, 3]).1 3 = true := by decide

/-- Converse used by shutdown: if exactly the ids `1..n` (`n ≥ 1`) have been inserted there is one segment. -/
theorem C02_all_arrived_is_one_segment (xs : List Nat) (n : Nat) (hn : 1 ≤ n) (hb : n < 2 ^ 64 - 1)
    (hx : ∀ k, k ∈ xs ↔ 1 ≤ k ∧ k ≤ n) :
    getSegments (run empty xs).1 = [(1, n + 1)] := by
  obtain ⟨_, _, _, hs, hcov, _⟩ :=
    C01_segment_tree_is_exact_set xs (fun x hxx => by have := (hx x).1 hxx; omega)
  generalize hg : getSegments (run empty xs).1 = segs at *
  have hcov' : ∀ y, Covers segs y ↔ 1 ≤ y ∧ y ≤ n := fun y => by rw [hcov y, hx y]
  match segs, hs with
  | [], _ => exact absurd ((hcov' 1).2 ⟨Nat.le_refl _, hn⟩) (by simp [covers_nil])
  | [a], h =>
    rw [sep_cons] at h
    have e1 := (hcov' 1).2 ⟨Nat.le_refl _, hn⟩
    have e2 := (hcov' n).2 ⟨hn, Nat.le_refl _⟩
    have e3 := (hcov' a.1).1 ⟨a, by simp, Nat.le_refl _, h.1⟩
    have e4 := (hcov' (a.2 - 1)).1 ⟨a, by simp, by omega, by omega⟩
    rw [covers_cons] at e1 e2
    simp only [covers_nil, or_false] at e1 e2
    have : a.1 = 1 ∧ a.2 = n + 1 := by omega
    obtain ⟨a1, a2⟩ := a
    simp only at this
    rw [this.1, this.2]
  | a :: b :: rest, h =>
    rw [sep_cons, sep_cons] at h
    obtain ⟨h1, ⟨h2, h3, h4⟩, h5⟩ := h
    have hab := h5 b (by simp)
    have e1 := (hcov' a.1).1 ⟨a, by simp, by omega, h1⟩
    have e2 := (hcov' b.1).1 ⟨b, by simp, by omega, h2⟩
    have e3 := (hcov' a.2).2 (by omega)
    rw [covers_cons, covers_cons] at e3
    rcases e3 with e | e | ⟨s, hs, e⟩
    · omega
    · omega
    · have := h4 s hs; omega

example : ∀ k, k ∈ [3, 1, 2, 2] ↔ 1 ≤ k ∧ k ≤ 3 := by intro k; simp; omega

end Yacl.SegmentTree
