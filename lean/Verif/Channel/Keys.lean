import Verif.Channel.Model

/-! Property theorem C03: wire keys. -/
namespace Yacl.Channel

/-- A byte string contains the two-byte separator somewhere. Specification-level notion, independent of `findSeq`. -/
def ContainsSep (k : Bytes) : Prop := ∃ a b, k = a ++ kSeqKey ++ b

theorem findSeq_cons (a : UInt8) (r : Bytes) :
    findSeq (a :: r) = if a = 1 ∧ r.head? = some 2 then some 0 else (findSeq r).map (· + 1) := by
  rw [findSeq]
  have h : kSeqKey.isPrefixOf (a :: r) = true ↔ (a = 1 ∧ r.head? = some 2) := by
    cases r with
    | nil => simp [kSeqKey, List.isPrefixOf]
    | cons b r =>
      simp only [kSeqKey, List.isPrefixOf, Bool.and_true, Bool.and_eq_true, beq_iff_eq, List.head?_cons,
        Option.some.injEq]
      constructor
      · rintro ⟨rfl, rfl⟩; simp
      · rintro ⟨rfl, rfl⟩; simp
  by_cases hc : a = 1 ∧ r.head? = some 2
  · rw [if_pos (h.2 hc), if_pos hc]
  · rw [if_neg (fun x => hc (h.1 x)), if_neg hc]

theorem findSeq_none_iff (k : Bytes) : findSeq k = none ↔ ¬ ContainsSep k := by
  induction k with
  | nil => simp [findSeq, ContainsSep, kSeqKey]
  | cons a r ih =>
    rw [findSeq_cons]
    split
    · rename_i h
      simp only [reduceCtorEq, false_iff]
      intro hn
      apply hn
      cases r with
      | nil => simp at h
      | cons b r =>
        simp at h
        exact ⟨[], r, by simp [kSeqKey, h.1, h.2]⟩
    · rename_i h
      simp only [Option.map_eq_none_iff, ih]
      apply not_congr
      constructor
      · rintro ⟨x, y, rfl⟩; exact ⟨a :: x, y, by simp⟩
      · rintro ⟨x, y, hxy⟩
        cases x with
        | nil =>
          simp [kSeqKey] at hxy
          exact absurd ⟨hxy.1, by simp [hxy.2]⟩ h
        | cons x0 x =>
          simp at hxy
          exact ⟨x, y, by simp [hxy.2]⟩

theorem findSeq_append (k s : Bytes) (h : findSeq k = none) : findSeq (k ++ kSeqKey ++ s) = some k.length := by
  induction k with
  | nil => simp [findSeq_cons, kSeqKey]
  | cons a r ih =>
    rw [findSeq_cons] at h
    split at h
    · simp at h
    · rename_i hh
      simp only [Option.map_eq_none_iff] at h
      have := ih h
      rw [List.cons_append, List.cons_append, findSeq_cons, this]
      rw [if_neg]
      · simp
      · rintro ⟨h1, h2⟩
        apply hh
        cases r with
        | nil => simp [kSeqKey] at h2
        | cons b r => simpa [h1] using h2

theorem decimal_ne_nil (n : Nat) : decimal n ≠ [] := by
  rw [decimal]; split <;> simp

theorem digit_ofNat {d : Nat} (h : d < 10) :
    isDigit (UInt8.ofNat (48 + d)) = true ∧ (UInt8.ofNat (48 + d)).toNat - 48 = d := by
  have : d = 0 ∨ d = 1 ∨ d = 2 ∨ d = 3 ∨ d = 4 ∨ d = 5 ∨ d = 6 ∨ d = 7 ∨ d = 8 ∨ d = 9 := by omega
  rcases this with rfl | rfl | rfl | rfl | rfl | rfl | rfl | rfl | rfl | rfl <;> decide

theorem decimal_isDigit (n : Nat) : ∀ b ∈ decimal n, isDigit b = true := by
  induction n using Nat.strongRecOn with
  | _ n ih =>
    intro b hb
    rw [decimal] at hb
    split at hb
    · rw [List.mem_singleton] at hb; subst hb; exact (digit_ofNat (by assumption)).1
    · rw [List.mem_append, List.mem_singleton] at hb
      rcases hb with hb | rfl
      · exact ih _ (by omega) b hb
      · exact (digit_ofNat (by omega)).1

theorem parseDigits_append (a b : Bytes) (acc r : Nat) (h : parseDigits acc a = some r) :
    parseDigits acc (a ++ b) = parseDigits r b := by
  induction a generalizing acc with
  | nil => simp [parseDigits] at h; simp [h]
  | cons x xs ih =>
    simp only [parseDigits, List.cons_append] at h ⊢
    split at h
    · rename_i hd
      simp only [hd, if_true]
      split at h
      · rename_i hlt; simp only [hlt, if_true]; exact ih _ h
      · simp at h
    · simp at h

theorem parseDigits_decimal (n : Nat) (h : n < 2 ^ 64) : parseDigits 0 (decimal n) = some n := by
  induction n using Nat.strongRecOn with
  | _ n ih =>
    rw [decimal]
    split
    · rename_i hlt
      have := digit_ofNat hlt
      simp only [parseDigits, this.1, this.2, if_true, Nat.zero_mul, Nat.zero_add, h]
    · have h1 := ih (n / 10) (by omega) (by omega)
      rw [parseDigits_append _ _ _ _ h1]
      have := digit_ofNat (d := n % 10) (by omega)
      have e : n / 10 * 10 + n % 10 = n := by omega
      simp only [parseDigits, this.1, this.2, e, if_true, h]

theorem isDigit_not_space {b : UInt8} (h : isDigit b = true) : isSpace b = false ∧ b ≠ 43 := by
  simp only [isDigit, isSpace, Bool.and_eq_true, decide_eq_true_eq, UInt8.le_iff_toNat_le] at *
  have h1 : (48 : UInt8).toNat = 48 := rfl
  have h2 : (57 : UInt8).toNat = 57 := rfl
  constructor
  · have h3 : (9 : UInt8).toNat = 9 := rfl
    have h4 : (13 : UInt8).toNat = 13 := rfl
    simp only [Bool.or_eq_false_iff, beq_eq_false_iff_ne, Bool.and_eq_false_iff, decide_eq_false_iff_not]
    refine ⟨?_, ?_⟩
    · rintro rfl; simp at h
    · right; omega
  · rintro rfl; simp at h

theorem dropWhile_space_digits (l : Bytes) (h : ∀ b ∈ l, isDigit b = true) : l.dropWhile isSpace = l := by
  cases l with
  | nil => rfl
  | cons a r => simp [List.dropWhile_cons, (isDigit_not_space (h a (by simp))).1]

theorem viewToSizeT_decimal (n : Nat) (h : n < 2 ^ 64) : viewToSizeT (decimal n) = some n := by
  unfold viewToSizeT
  have hd := decimal_isDigit n
  rw [dropWhile_space_digits _ hd]
  rw [dropWhile_space_digits _ (by simpa using hd)]
  simp only [List.reverse_reverse]
  have hne := decimal_ne_nil n
  have hp := parseDigits_decimal n h
  generalize decimal n = l at *
  cases l with
  | nil => exact absurd rfl hne
  | cons a r =>
    have h43 := (isDigit_not_space (hd a (by simp))).2
    have : stripPlus (a :: r) = a :: r := by simp [stripPlus, h43]
    rw [this]
    simpa using hp

/-- **C03.** A key is accepted exactly when it is non-empty and does not contain the reserved separator; the wire key built
from an accepted key and any 64-bit sequence number splits back into exactly that key and number; therefore two different
(key, number) pairs never share a wire key, and no wire key of a message is mistaken for an ACK or FIN. -/
theorem C03_wire_key_roundtrip :
    (∀ k, keyAccepted k = true ↔ k ≠ [] ∧ ¬ ContainsSep k) ∧
    (∀ k seq, keyAccepted k = true → seq < 2 ^ 64 → splitChannelKey (buildChannelKey k seq) = some (k, seq)) ∧
    (∀ k seq k' seq', keyAccepted k = true → keyAccepted k' = true → seq < 2 ^ 64 → seq' < 2 ^ 64 →
      buildChannelKey k seq = buildChannelKey k' seq' → k = k' ∧ seq = seq') ∧
    (∀ k seq, keyAccepted k = true → buildChannelKey k seq ≠ kAckKey ∧ buildChannelKey k seq ≠ kFinKey) := by
  have acc : ∀ k, keyAccepted k = true ↔ k ≠ [] ∧ ¬ ContainsSep k := by
    intro k
    rw [← findSeq_none_iff]
    simp [keyAccepted]
  have rt : ∀ k seq, keyAccepted k = true → seq < 2 ^ 64 →
      splitChannelKey (buildChannelKey k seq) = some (k, seq) := by
    intro k seq hk hs
    have hf : findSeq k = none := (findSeq_none_iff k).2 ((acc k).1 hk).2
    unfold splitChannelKey buildChannelKey
    rw [findSeq_append k _ hf]
    have hdrop : List.drop (k.length + kSeqKey.length) (k ++ kSeqKey ++ decimal seq) = decimal seq := by
      rw [← List.length_append, List.drop_left]
    have htake : List.take k.length (k ++ kSeqKey ++ decimal seq) = k := by
      rw [List.append_assoc, List.take_left]
    simp only [hdrop, htake, viewToSizeT_decimal seq hs]
  refine ⟨acc, rt, ?_, ?_⟩
  · intro k seq k' seq' hk hk' hs hs' he
    have h1 := rt k seq hk hs
    rw [he, rt k' seq' hk' hs'] at h1
    simpa [eq_comm] using h1
  · intro k seq hk
    have hd := decimal_isDigit seq
    have hne := decimal_ne_nil seq
    have key : ∀ (x y z : UInt8), buildChannelKey k seq ≠ [x, y, z, 1, 2] := by
      intro x y z he
      -- the last byte of a wire key is a digit, the last byte of the control keys is 2
      have hl : (buildChannelKey k seq).getLast? = some 2 := by rw [he]; rfl
      unfold buildChannelKey at hl
      rw [List.getLast?_append, List.getLast?_eq_some_getLast hne] at hl
      simp only [Option.some_or, Option.some.injEq] at hl
      have := hd 2 (hl ▸ List.getLast_mem hne)
      simp [isDigit] at this
    exact ⟨key _ _ _, key _ _ _⟩

/-- Non-vacuity: a key that itself ends in the first separator byte. -/
example : keyAccepted [97, 1] = true ∧
    splitChannelKey (buildChannelKey [97, 1] 1203) = some ([97, 1], 1203) := by
  have h : keyAccepted [97, 1] = true := by decide
  exact ⟨h, C03_wire_key_roundtrip.2.1 _ _ h (by omega)⟩

end Yacl.Channel
