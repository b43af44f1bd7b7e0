import Mathlib.Data.List.Basic
import Mathlib.Data.List.TakeWhile
import Mathlib.Logic.Function.Basic
import Mathlib.Tactic.Common

/-! C146: `yacl::ByteContainerView`, the argument type of every function that takes bytes.  A view is a pointer and a size: it must stand
for the bytes of the container it was made from, and two views must be equal exactly when they stand for the same bytes. -/

namespace Yacl.ByteView

/-! ### Model -/

abbrev Byte := BitVec 8

/-- Memory: the bytes of every live object; `none` once the object is destroyed. -/
abbrev Mem := ℕ → Option (List Byte)

/-- A pointer: object and offset, or `nullptr`.  Simplification: a pointer one past the end of an object is never equal to a pointer to
another object. -/
abbrev Ptr := Option (ℕ × ℕ)

/-- A call returns, or its behaviour is undefined. -/
inductive Out (α : Type) where
  | ok (a : α)
  | undef
deriving DecidableEq

/-- byte_container_view.h L29 (`absl::Span<const uint8_t>`): pointer and size. -/
structure View where
  ptr : Ptr
  size : ℕ
deriving DecidableEq

/-- Read `n` bytes from `p`: undefined outside a live object, and, as for `memcmp` and `memcpy`, from `nullptr` even when `n` is 0. -/
def readAt (m : Mem) (p : Ptr) (n : ℕ) : Out (List Byte) :=
  match p with
  | none => .undef
  | some (o, i) =>
    match m o with
    | none => .undef
    | some b => if i + n ≤ b.length then .ok ((b.drop i).take n) else .undef

/-- `std::strlen`: the number of bytes before the first zero byte; undefined when there is none in the object. -/
def strlen (m : Mem) (p : ℕ × ℕ) : Out ℕ :=
  match m p.1 with
  | none => .undef
  | some b =>
    let l := b.drop p.2
    let n := (l.takeWhile (· ≠ 0)).length
    if n < l.length then .ok n else .undef

/-- byte_container_view.h L33-38: from a pointer and a number of bytes. -/
def ofRaw (p : Ptr) (n : ℕ) : View := ⟨p, n⟩

/-- byte_container_view.h L40-44, L54-55: from a container (`data()`, `size()`) of one-byte elements or a `Buffer`.  `empty` says whether
the container has allocated nothing, so that `data()` is null (an empty `std::vector` or `Buffer`). -/
def ofContainer (m : Mem) (o : ℕ) (null : Bool) : View :=
  if null then ⟨none, 0⟩ else ⟨some (o, 0), ((m o).getD []).length⟩

/-- byte_container_view.h L49-52: from a C string.  A string literal takes this constructor as well: the parameter of the one at L46-47
is adjusted to `const char *`, so its `N` cannot be deduced and it is never chosen. -/
def ofCStr (m : Mem) (p : Ptr) : Out View :=
  match p with
  | none => .ok ⟨none, 0⟩
  | some q =>
    match strlen m q with
    | .ok n => .ok ⟨some q, n⟩
    | .undef => .undef

/-- `std::memcmp(a, b, n) == 0`. -/
def memEq (m : Mem) (a b : Ptr) (n : ℕ) : Out Bool :=
  match readAt m a n, readAt m b n with
  | .ok x, .ok y => .ok (decide (x = y))
  | _, _ => .undef

/-- byte_container_view.h L57-65 `operator==`. -/
def eq (m : Mem) (v w : View) : Out Bool :=
  if v.ptr = w.ptr ∧ v.size = w.size then .ok true
  else if v.size = w.size then memEq m v.ptr w.ptr v.size
  else .ok false

/-- byte_container_view.h L67-71: conversion to `std::string_view`. -/
def toStringView (v : View) : View := if v.size = 0 then ⟨none, 0⟩ else v

/-! ### Specification -/

/-- The view stands for the bytes `b`: it points at them in a live object, or it is empty. -/
def Shows (m : Mem) (v : View) (b : List Byte) : Prop :=
  v.size = b.length ∧
    ((v.ptr = none ∧ b = []) ∨ ∃ o i x, v.ptr = some (o, i) ∧ m o = some x ∧ i + b.length ≤ x.length ∧ (x.drop i).take b.length = b)

/-! ### Proof -/

theorem shows_read {m v b} (h : Shows m v b) (hn : v.ptr ≠ none) : readAt m v.ptr v.size = .ok b := by
  obtain ⟨h1, h2 | ⟨o, i, x, h2, h3, h4, h5⟩⟩ := h
  · exact absurd h2.1 hn
  · rw [h2, h1]
    simp [readAt, h3, h4, h5]

theorem shows_unique {m v b c} (h : Shows m v b) (h' : Shows m v c) : b = c := by
  by_cases hn : v.ptr = none
  · obtain ⟨-, h2 | ⟨o, i, x, h2, -⟩⟩ := h
    · obtain ⟨-, h3 | ⟨o, i, x, h3, -⟩⟩ := h'
      · rw [h2.2, h3.2]
      · simp [hn] at h3
    · simp [hn] at h2
  · have := (shows_read h hn).symm.trans (shows_read h' hn)
    simpa using this

/-! ### The property -/

/-- C146.  Two views of bytes are equal exactly when the bytes are, unless one is the null view and the other an empty view that is
not null. -/
theorem C146_eq_partial (m : Mem) (v w : View) (b c : List Byte) (hv : Shows m v b) (hw : Shows m w c)
    (hne : ¬ (v.size = 0 ∧ w.size = 0 ∧ (v.ptr = none ↔ w.ptr ≠ none))) : eq m v w = .ok (decide (b = c)) := by
  unfold eq
  split
  · next h =>
    have : v = w := by cases v; cases w; simp_all
    subst this
    simp [shows_unique hv hw]
  · next h =>
    split
    · next hs =>
      have hz : v.ptr ≠ none ∧ w.ptr ≠ none := by
        constructor
        · intro hn
          obtain ⟨h1, h2 | ⟨o, i, x, h2, -⟩⟩ := hv
          · have h0 : v.size = 0 := by rw [h1, h2.2]; rfl
            exact hne ⟨h0, hs ▸ h0, by simp only [hn, true_iff]; intro hw'; exact h ⟨by rw [hn, hw'], hs⟩⟩
          · simp [hn] at h2
        · intro hn
          obtain ⟨h1, h2 | ⟨o, i, x, h2, -⟩⟩ := hw
          · have h0 : w.size = 0 := by rw [h1, h2.2]; rfl
            exact hne ⟨hs.symm ▸ h0, h0, by simp only [hn, ne_eq, not_true, iff_false]; intro hv'; exact h ⟨by rw [hn, hv'], hs⟩⟩
          · simp [hn] at h2
      unfold memEq
      rw [shows_read hv hz.1, hs, shows_read hw hz.2]
    · next hs =>
      rw [hv.1, hw.1] at hs
      have : b ≠ c := fun hc => hs (by rw [hc])
      simp [this]

/-- C146 fails for two empty containers one of which has no storage (an empty vector and an empty string): `memcmp` is called with a
null pointer, which is undefined. -/
theorem C146_null_violated : ∃ (m : Mem) (v w : View), Shows m v [] ∧ Shows m w [] ∧ eq m v w = .undef :=
  ⟨fun o => if o = 1 then some [0] else none, ⟨none, 0⟩, ⟨some (1, 0), 0⟩, by simp [Shows], ⟨rfl, .inr ⟨1, 0, [0], by simp⟩⟩, by decide⟩

/-- C146.  Comparing never depends on bytes outside the two views: two memories that agree on them give the same answer. -/
theorem C146_frame (m m' : Mem) (v w : View) (b c : List Byte) (hv : Shows m v b) (hw : Shows m w c) (hv' : Shows m' v b)
    (hw' : Shows m' w c) : eq m v w = eq m' v w := by
  by_cases hne : v.size = 0 ∧ w.size = 0 ∧ (v.ptr = none ↔ w.ptr ≠ none)
  · have hp : v.ptr ≠ w.ptr := by
      intro hp
      have := hne.2.2
      rw [hp] at this
      by_cases hn : w.ptr = none <;> simp [hn] at this
    have : ∀ mm, eq mm v w = .undef := by
      intro mm
      simp only [eq, hp, false_and, if_false, hne.1, hne.2.1, if_true]
      by_cases hn : v.ptr = none
      · simp [memEq, readAt, hn]
      · have hw0 : w.ptr = none := by
          by_contra hc
          exact hn (hne.2.2.2 hc)
        unfold memEq
        rw [hw0]
        cases readAt mm v.ptr 0 <;> simp [readAt]
    rw [this, this]
  · rw [C146_eq_partial m v w b c hv hw hne, C146_eq_partial m' v w b c hv' hw' hne]

/-- C146.  A view of a container shows all its bytes, zero bytes included, whether or not the container has storage. -/
theorem C146_container (m : Mem) (o : ℕ) (b : List Byte) (null : Bool) (h : m o = some b) (hn : null = true → b = []) :
    Shows m (ofContainer m o null) b := by
  cases null
  · exact ⟨by simp [ofContainer, h], .inr ⟨o, 0, b, by simp [ofContainer, h]⟩⟩
  · simp [ofContainer, Shows, hn rfl]

/-- C146.  A view of a part of an object, given by pointer and size, shows that part. -/
theorem C146_raw (m : Mem) (o i n : ℕ) (b : List Byte) (h : m o = some b) (hn : i + n ≤ b.length) :
    Shows m (ofRaw (some (o, i)) n) ((b.drop i).take n) := by
  have hl : ((b.drop i).take n).length = n := by rw [List.length_take, List.length_drop]; omega
  exact ⟨hl.symm, .inr ⟨o, i, b, rfl, h, by omega, by rw [hl]⟩⟩

/-- C146.  A view of a C string shows the bytes before the first zero byte; of a null pointer, nothing. -/
theorem C146_cstr (m : Mem) (o : ℕ) (s rest : List Byte) (h : m o = some (s ++ 0 :: rest)) (h0 : ∀ x ∈ s, x ≠ 0) :
    (∃ v, ofCStr m (some (o, 0)) = .ok v ∧ Shows m v s) ∧ ofCStr m none = .ok ⟨none, 0⟩ := by
  have ht : (s ++ 0 :: rest).takeWhile (fun x => decide (x ≠ 0)) = s := by
    rw [List.takeWhile_append_of_pos (by simpa using h0)]
    simp
  refine ⟨⟨⟨some (o, 0), s.length⟩, ?_, rfl, .inr ⟨o, 0, _, rfl, h, by simp, by simp⟩⟩, rfl⟩
  simp only [ofCStr, strlen, h, List.drop_zero, ht]
  simp

/-- C146 fails for string literals (and character arrays) that contain a zero byte: the view of `"a\0b"` shows only `a`, so literals
that differ after a zero byte are equal. -/
theorem C146_literal_violated (o : ℕ) (s t : List Byte) (h0 : ∀ x ∈ s, x ≠ 0) (m : Mem) (h : m o = some (s ++ 0 :: t ++ [0])) :
    ∃ v, ofCStr m (some (o, 0)) = .ok v ∧ Shows m v s ∧ ¬ Shows m v (s ++ 0 :: t) := by
  obtain ⟨⟨v, h1, h2⟩, -⟩ := C146_cstr m o s (t ++ [0]) (by simpa using h) h0
  refine ⟨v, h1, h2, fun h3 => ?_⟩
  have := shows_unique h2 h3
  simp at this

/-- C146.  The string view has the same bytes. -/
theorem C146_string_view (m : Mem) (v : View) (b : List Byte) (h : Shows m v b) : Shows m (toStringView v) b := by
  unfold toStringView
  split
  · next hs =>
    have : b = [] := List.length_eq_zero_iff.1 (by rw [← h.1, hs])
    subst this
    exact ⟨rfl, .inl ⟨rfl, rfl⟩⟩
  · exact h

/-- C146.  A view is no copy: after a write to the container it shows the new bytes, and reading it once the container is destroyed is
undefined. -/
theorem C146_alias (m : Mem) (o : ℕ) (b c : List Byte) (h : m o = some b) (hc : c.length = b.length) :
    Shows (Function.update m o (some c)) (ofContainer m o false) c ∧
      readAt (Function.update m o none) (ofContainer m o false).ptr (ofContainer m o false).size = .undef := by
  refine ⟨⟨by simp [ofContainer, h, hc], .inr ⟨o, 0, c, by simp [ofContainer]⟩⟩, ?_⟩
  simp [ofContainer, readAt]

/-- A hash and a received buffer with the same bytes, and one with a byte changed. -/
example : let m : Mem := fun o => [[1, 0, 2], [1, 0, 2], [1, 0, 3]][o]?
    Shows m (ofContainer m 0 false) [1, 0, 2] ∧ eq m (ofContainer m 0 false) (ofContainer m 1 false) = .ok true ∧
      eq m (ofContainer m 0 false) (ofContainer m 2 false) = .ok false :=
  ⟨C146_container _ 0 _ false rfl (by simp), by decide, by decide⟩
example : let m : Mem := fun _ => some [97, 0, 98, 0]
    ofCStr m (some (0, 0)) = .ok ⟨some (0, 0), 1⟩ ∧ ofCStr m (some (0, 2)) = .ok ⟨some (0, 2), 1⟩ := by decide

end Yacl.ByteView
