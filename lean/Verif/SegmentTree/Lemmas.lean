import Mathlib.Tactic.Tauto
import Verif.SegmentTree.Model
import Verif.SegmentTree.Spec

namespace Yacl.SegmentTree
open Spec

theorem succ64_eq {x : Nat} (h : x < 2 ^ 64 - 1) : succ64 x = x + 1 := by
  unfold succ64; omega

theorem splitLe_append (segs : List (Nat × Nat)) (x : Nat) :
    (splitLe segs x).1 ++ (splitLe segs x).2 = segs := List.takeWhile_append_dropWhile

theorem splitLe_fst_le (segs : List (Nat × Nat)) (x : Nat) : ∀ s ∈ (splitLe segs x).1, s.1 ≤ x := by
  intro s hs
  have := List.all_takeWhile (p := fun s : Nat × Nat => decide (s.1 ≤ x)) (l := segs)
  rw [List.all_eq_true] at this
  simpa using this s hs

theorem splitLe_snd_gt (segs : List (Nat × Nat)) (x : Nat) (h : Separated segs) :
    ∀ s ∈ (splitLe segs x).2, x < s.1 := by
  unfold splitLe
  induction segs with
  | nil => simp
  | cons a l ih =>
    obtain ⟨h1, h2⟩ := h
    rw [List.pairwise_cons] at h2
    simp only [List.dropWhile_cons]
    split
    · exact ih ⟨fun s hs => h1 s (by simp [hs]), h2.2⟩
    · rename_i hh
      simp at hh
      intro s hs
      simp at hs
      rcases hs with rfl | hs
      · exact hh
      · have := h2.1 s hs
        have := h1 a (by simp)
        omega

theorem sep_append {a b : List (Nat × Nat)} :
    Separated (a ++ b) ↔ Separated a ∧ Separated b ∧ ∀ x ∈ a, ∀ y ∈ b, x.2 < y.1 := by
  unfold Separated
  rw [List.pairwise_append]
  constructor
  · rintro ⟨h, h1, h2, h3⟩
    exact ⟨⟨fun s hs => h s (by simp [hs]), h1⟩, ⟨fun s hs => h s (by simp [hs]), h2⟩, h3⟩
  · rintro ⟨⟨h1, h2⟩, ⟨h3, h4⟩, h5⟩
    refine ⟨?_, h2, h4, h5⟩
    intro s hs
    rcases List.mem_append.1 hs with h | h
    · exact h1 s h
    · exact h3 s h

theorem sep_cons {a : Nat × Nat} {b : List (Nat × Nat)} :
    Separated (a :: b) ↔ a.1 < a.2 ∧ Separated b ∧ ∀ y ∈ b, a.2 < y.1 := by
  unfold Separated
  rw [List.pairwise_cons]
  simp only [List.mem_cons, forall_eq_or_imp]
  constructor
  · rintro ⟨⟨h, h'⟩, h1, h2⟩; exact ⟨h, ⟨h', h2⟩, h1⟩
  · rintro ⟨h, ⟨h', h2⟩, h1⟩; exact ⟨⟨h, h'⟩, h1, h2⟩

theorem covers_append {a b : List (Nat × Nat)} {x : Nat} :
    Covers (a ++ b) x ↔ Covers a x ∨ Covers b x := by
  unfold Covers; simp only [List.mem_append]; constructor
  · rintro ⟨s, h | h, h'⟩
    · exact .inl ⟨s, h, h'⟩
    · exact .inr ⟨s, h, h'⟩
  · rintro (⟨s, h, h'⟩ | ⟨s, h, h'⟩)
    · exact ⟨s, .inl h, h'⟩
    · exact ⟨s, .inr h, h'⟩

theorem covers_cons {a : Nat × Nat} {b : List (Nat × Nat)} {x : Nat} :
    Covers (a :: b) x ↔ (a.1 ≤ x ∧ x < a.2) ∨ Covers b x := by
  unfold Covers; simp

theorem covers_nil {x : Nat} : Covers [] x ↔ False := by unfold Covers; simp

theorem sep_nil : Separated [] := by unfold Separated; simp

/-- Case analysis of a list by its last element. -/
theorem getLast?_cases {α} (l : List α) :
    (l = [] ∧ l.getLast? = none) ∨ ∃ i a, l = i ++ [a] ∧ l.getLast? = some a ∧ l.dropLast = i := by
  rcases List.eq_nil_or_concat l with h | ⟨i, a, h⟩
  · left; simp [h]
  · right; exact ⟨i, a, by simpa using h, by simp [h], by simp [h]⟩

/-- `Contains` is membership in the union of the segments. -/
theorem contains_iff (t : Tree) (h : Separated t.segments) (x : Nat) :
    contains t x = true ↔ Covers t.segments x := by
  have hap := splitLe_append t.segments x
  have hle := splitLe_fst_le t.segments x
  have hgt := splitLe_snd_gt t.segments x h
  unfold contains
  obtain ⟨segs, cnt⟩ := t
  simp only at *
  generalize splitLe segs x = pq at *
  obtain ⟨pre, post⟩ := pq
  simp only at hap hle hgt ⊢
  subst hap
  have hpost : ¬ Covers post x := by
    rintro ⟨s, hs, h1, h2⟩; have := hgt s hs; omega
  rcases getLast?_cases pre with ⟨rfl, h2⟩ | ⟨i, c, rfl, h2, h3⟩
  · simp [hpost]
  · rw [h2]
    simp only [covers_append, hpost, or_false, covers_cons, covers_nil]
    have hc := hle c (by simp)
    simp only [sep_append] at h
    obtain ⟨⟨hi, hcs, hic⟩, _, _⟩ := h
    have hi' : ¬ Covers i x := by
      rintro ⟨s, hs, h1, h2⟩
      have := hic s hs c (by simp); omega
    simp [hi', hc]

/-- Bounds: all ids stored are below `2^64`, so `item + 1` never wrapped. -/
def Bounded (segs : List (Nat × Nat)) : Prop := ∀ s ∈ segs, s.2 ≤ 2 ^ 64 - 1

/-- Total length of the segments. -/
def total (segs : List (Nat × Nat)) : Nat := (segs.map (fun s => s.2 - s.1)).sum

/-- What `place` followed by the merges does to a well-formed tree. -/
theorem insert_spec (t : Tree) (x : Nat) (h : Separated t.segments) (hx : x < 2 ^ 64 - 1) :
    Separated (insert t x).1.segments ∧
    (∀ y, Covers (insert t x).1.segments y ↔ Covers t.segments y ∨ y = x) ∧
    ((insert t x).2 = true ↔ ¬ Covers t.segments x) ∧
    (insert t x).1.count = t.count + (if (insert t x).2 then 1 else 0) := by
  have hap := splitLe_append t.segments x
  have hle := splitLe_fst_le t.segments x
  have hgt := splitLe_snd_gt t.segments x h
  unfold insert place
  rw [succ64_eq hx]
  obtain ⟨segs, cnt⟩ := t
  simp only at *
  generalize splitLe segs x = pq at *
  obtain ⟨pre, post⟩ := pq
  simp only at hap hle hgt ⊢
  subst hap
  have hpost : ¬ Covers post x := by
    rintro ⟨s, hs, h1, h2⟩; have := hgt s hs; omega
  -- the effect of the final merge with the next segment
  have next : ∀ (b : List (Nat × Nat)) (c : Nat × Nat),
      Separated b → (∀ s ∈ b, s.2 < c.1) → c.1 < c.2 → c.2 = x + 1 →
      (∀ s ∈ b, ∀ s' ∈ post, s.2 < s'.1) →
      Separated (mergeNext ⟨b, c, post⟩).toList ∧
      ∀ y, Covers (mergeNext ⟨b, c, post⟩).toList y ↔ Covers b y ∨ (c.1 ≤ y ∧ y < c.2) ∨ Covers post y := by
    intro b c hb hbc hc hcx hbp
    unfold mergeNext Zipper.toList
    cases post with
    | nil =>
      simp only [sep_append, sep_cons, covers_append, covers_cons, covers_nil, sep_nil]
      refine ⟨⟨hb, ⟨hc, trivial, by simp⟩, ?_⟩, fun y => by trivial⟩
      intro s hs y hy; simp at hy; subst hy; exact hbc s hs
    | cons n rest =>
      have hn := hgt n (by simp)
      simp only [sep_append, sep_cons] at h
      obtain ⟨hpre, ⟨hn1, hrest, hnr⟩, hprepost⟩ := h
      simp only
      split
      · rename_i heq
        simp only [sep_append, sep_cons, covers_append, covers_cons]
        refine ⟨⟨hb, ⟨by omega, hrest, hnr⟩, ?_⟩, ?_⟩
        · intro s hs y hy
          simp only [List.mem_cons] at hy
          rcases hy with rfl | hy
          · exact hbc s hs
          · exact hbp s hs y (by simp [hy])
        · intro y
          have : (c.1 ≤ y ∧ y < n.2) ↔ (c.1 ≤ y ∧ y < c.2) ∨ (n.1 ≤ y ∧ y < n.2) := by omega
          rw [this, or_assoc]
      · rename_i hne
        simp only [sep_append, sep_cons, covers_append, covers_cons]
        refine ⟨⟨hb, ⟨hc, ⟨hn1, hrest, hnr⟩, ?_⟩, ?_⟩, fun y => by trivial⟩
        · intro y hy
          simp only [List.mem_cons] at hy
          rcases hy with rfl | hy
          · omega
          · have := hnr y hy; omega
        · intro s hs y hy
          simp only [List.mem_cons] at hy
          rcases hy with rfl | hy
          · exact hbc s hs
          · exact hbp s hs y (by simpa using hy)
  rcases getLast?_cases pre with ⟨rfl, h2⟩ | ⟨i, c, rfl, h2, h3⟩
  · simp only [List.getLast?_nil, mergePrev]
    have := next [] (x, x + 1) sep_nil (by simp) (by simp) rfl (by simp)
    refine ⟨this.1, ?_, by simpa using hpost, by simp⟩
    intro y
    rw [this.2 y]
    simp only [List.nil_append, covers_nil, false_or]
    have : (x ≤ y ∧ y < x + 1) ↔ y = x := by omega
    rw [this]; exact Or.comm
  · have hcx := hle c (by simp)
    simp only [h2, h3]
    simp only [sep_append, sep_cons, sep_nil] at h
    obtain ⟨⟨hi, ⟨hc1, _, _⟩, hic⟩, hpo, hip⟩ := h
    have hic' : ∀ s ∈ i, s.2 < c.1 := fun s hs => hic s hs c (by simp)
    have hicov : ¬ Covers i x := by
      rintro ⟨s, hs, h1, h2⟩
      have := hic' s hs; omega
    by_cases hgtc : x > c.2
    · have hne : ¬ c.1 = x := by omega
      simp only [hgtc, if_true, if_neg hne]
      -- no merge with the previous segment
      have hm : mergePrev ⟨i ++ [c], (x, x + 1), post⟩ = ⟨i ++ [c], (x, x + 1), post⟩ := by
        unfold mergePrev; simp; omega
      rw [hm]
      have hs : Separated (i ++ [c]) := by
        simp only [sep_append, sep_cons, sep_nil]; exact ⟨hi, ⟨hc1, trivial, by simp⟩, hic⟩
      have := next (i ++ [c]) (x, x + 1) hs
        (by
          intro s hs
          simp only [List.mem_append, List.mem_singleton] at hs
          rcases hs with hs | rfl
          · have := hic' s hs; simp only; omega
          · exact hgtc) (by simp) rfl hip
      refine ⟨this.1, ?_, ?_, by simp⟩
      · intro y
        rw [this.2 y, covers_append, covers_append, covers_append]
        have : (x ≤ y ∧ y < x + 1) ↔ y = x := by omega
        rw [this]; clear next hip hic hle hgt hic'; tauto
      · simp only [true_iff, covers_append, covers_cons, covers_nil, hicov, hpost]
        simp; omega
    · simp only [hgtc, if_false]
      by_cases heq : x = c.2
      · simp only [heq, if_true]
        have hsep_i : ∀ s ∈ i, ∀ s' ∈ post, s.2 < s'.1 := fun s hs => hip s (by simp [hs])
        have hm : mergePrev ⟨i, (c.1, c.2 + 1), post⟩ = ⟨i, (c.1, c.2 + 1), post⟩ := by
          unfold mergePrev
          rcases getLast?_cases i with ⟨rfl, h4⟩ | ⟨i', p, rfl, h4, h5⟩
          · simp
          · have := hic' p (by simp)
            simp only [h4]
            rw [if_neg (by omega)]
        rw [hm]
        have := next i (c.1, c.2 + 1) hi hic' (by simp only; omega) (by simp only; omega) hsep_i
        refine ⟨this.1, ?_, ?_, by simp⟩
        · intro y
          rw [this.2 y, covers_append, covers_append, covers_cons, covers_nil]
          have : (c.1 ≤ y ∧ y < c.2 + 1) ↔ (c.1 ≤ y ∧ y < c.2) ∨ y = c.2 := by omega
          rw [this]; clear next hip hic hle hgt hic'; tauto
        · rw [← heq]
          simp only [true_iff, covers_append, covers_cons, covers_nil, hicov, hpost]
          simp; omega
      · simp only [heq, if_false]
        refine ⟨?_, ?_, ?_, by simp⟩
        · simp only [sep_append, sep_cons, sep_nil]
          exact ⟨⟨hi, ⟨hc1, trivial, by simp⟩, hic⟩, hpo, hip⟩
        · intro y
          constructor
          · exact Or.inl
          · rintro (h | rfl)
            · exact h
            · simp only [covers_append, covers_cons]
              left; right; left; omega
        · simp only [covers_append, covers_cons]
          have : c.1 ≤ x ∧ x < c.2 := by omega
          simp [this]

theorem distinct_cons (x : Nat) (a : List Nat) :
    distinct (x :: a) = distinct a + if x ∈ a then 0 else 1 := by
  unfold distinct
  by_cases h : x ∈ a
  · rw [List.toFinset_cons, Finset.insert_eq_of_mem (by simpa using h)]; simp [h]
  · rw [List.toFinset_cons, Finset.card_insert_of_notMem (by simpa using h)]; simp [h]

theorem distinct_reverse (a : List Nat) : distinct a.reverse = distinct a := by
  unfold distinct; rw [List.toFinset_reverse]

end Yacl.SegmentTree
