import Mathlib.Logic.Basic

/-! Key-value stores: yacl/io/kv/{kvstore.h,memory_kvstore.cc,leveldb_kvstore.cc}. Property C32. -/
namespace Yacl.Kv

abbrev Bytes := List UInt8

/-! ### Model -/

/-- `std::map<std::string, Buffer> kv_map` (memory_kvstore.h), as an association list. -/
abbrev Store := List (List Char × Bytes)

/-- `std::map::find`. -/
def find (s : Store) (k : List Char) : Option Bytes :=
  match s with
  | [] => none
  | (k', v) :: r => if k' = k then some v else find r k

/-- memory_kvstore.cc L21-26 `MemoryKVStore::Put`: copies the value and calls `std::map::insert`, which does nothing when
the key is already present. -/
def memPut (s : Store) (k : List Char) (v : Bytes) : Store :=
  match find s k with
  | some _ => s
  | none => s ++ [(k, v)]

/-- memory_kvstore.cc L28-37 `MemoryKVStore::Get(key, std::string*)`: `none` when it returns false (the output string is
then left alone). -/
def memGet (s : Store) (k : List Char) : Option Bytes := find s k

/-- memory_kvstore.cc L39 and leveldb_kvstore.cc L94-107 (iterating over all entries). -/
def count (s : Store) : Nat := s.length

/-- leveldb_kvstore.cc L66-76 `LeveldbKVStore::Put`. `ok` is what leveldb reports; when it is not ok an exception is thrown
(`none`). leveldb itself is trusted to be a map in which a later write replaces an earlier one. -/
def replace : Store → List Char → Bytes → Store
  | [], k, v => [(k, v)]
  | (k', v') :: r, k, v => if k' = k then (k, v) :: r else (k', v') :: replace r k v

def ldbPut (s : Store) (k : List Char) (v : Bytes) (ok : Bool) : Option Store := if ok then some (replace s k v) else none

/-- leveldb_kvstore.cc L78-92 `LeveldbKVStore::Get` when leveldb reports no error other than not-found. -/
def ldbGet (s : Store) (k : List Char) : Option Bytes := find s k

/-- kvstore.h L39-47 `KVStore::Get(key, Buffer*)`: the buffer is resized to the length of the (possibly still empty) string
whatever the outcome. Result: return value and new contents of the buffer. -/
def getBuffer (get : Option Bytes) : Bool × Bytes :=
  match get with
  | some v => (true, v)
  | none => (false, [])

/-- kvstore.h L59-73 `IndexStore`: the key is `std::to_string(index)`. -/
def indexKey (i : Nat) : List Char := Nat.toDigits 10 i

def runMem (s : Store) (h : List (List Char × Bytes)) : Store := h.foldl (fun s kv => memPut s kv.1 kv.2) s
def runLdb (s : Store) (h : List (List Char × Bytes)) : Store := h.foldl (fun s kv => replace s kv.1 kv.2) s
def indexHistory (h : List (Nat × Bytes)) : List (List Char × Bytes) := h.map (fun iv => (indexKey iv.1, iv.2))

/-! ### Specification: what a history of writes says about a key -/

/-- The value last written under `k`, if any. -/
def lastWritten {K : Type} [DecidableEq K] : List (K × Bytes) → K → Option Bytes
  | [], _ => none
  | (k', v) :: r, k => match lastWritten r k with
    | some w => some w
    | none => if k' = k then some v else none

/-- The value first written under `k`, if any. -/
def firstWritten {K : Type} [DecidableEq K] : List (K × Bytes) → K → Option Bytes
  | [], _ => none
  | (k', v) :: r, k => if k' = k then some v else firstWritten r k


/-! ### Lemmas -/

theorem find_append (s t : Store) (k : List Char) :
    find (s ++ t) k = match find s k with | some v => some v | none => find t k := by
  induction s with
  | nil => simp [find]
  | cons a s ih =>
    obtain ⟨k', v⟩ := a
    simp only [List.cons_append, find]
    split
    · rfl
    · exact ih

theorem find_memPut (s : Store) (k k' : List Char) (v : Bytes) :
    find (memPut s k v) k' = match find s k' with | some w => some w | none => if k = k' then some v else none := by
  unfold memPut
  split
  · rename_i w hw
    by_cases h : k = k'
    · subst h; simp [hw]
    · cases find s k' <;> simp [h]
  · rw [find_append]; simp [find]

theorem find_runMem (s : Store) (h : List (List Char × Bytes)) (k : List Char) :
    find (runMem s h) k = match find s k with | some w => some w | none => firstWritten h k := by
  induction h generalizing s with
  | nil => simp only [runMem, List.foldl, firstWritten]; cases find s k <;> rfl
  | cons a h ih =>
    obtain ⟨k', v⟩ := a
    have := ih (memPut s k' v)
    simp only [runMem, List.foldl] at this ⊢
    rw [this, find_memPut]
    simp only [firstWritten]
    cases find s k with
    | some w => rfl
    | none => by_cases h' : k' = k <;> simp [h']

theorem find_replace (s : Store) (k k' : List Char) (v : Bytes) :
    find (replace s k v) k' = if k = k' then some v else find s k' := by
  induction s with
  | nil => simp [replace, find]
  | cons a s ih =>
    obtain ⟨k0, v0⟩ := a
    simp only [replace]
    by_cases h : k0 = k
    · subst h; simp only [if_true, find]; split <;> simp_all
    · rw [if_neg h]; simp only [find, ih]
      by_cases h2 : k = k'
      · subst h2; simp [h]
      · simp [h2]

theorem find_runLdb (s : Store) (h : List (List Char × Bytes)) (k : List Char) :
    find (runLdb s h) k = match lastWritten h k with | some w => some w | none => find s k := by
  induction h generalizing s with
  | nil => simp [runLdb, lastWritten]
  | cons a h ih =>
    obtain ⟨k', v⟩ := a
    have := ih (replace s k' v)
    simp only [runLdb, List.foldl] at this ⊢
    rw [this, find_replace]
    simp only [lastWritten]
    cases lastWritten h k with
    | some w => rfl
    | none => by_cases h' : k' = k <;> simp [h']

theorem lastWritten_none {K : Type} [DecidableEq K] (h : List (K × Bytes)) (k : K) :
    lastWritten h k = none ↔ k ∉ h.map (·.1) := by
  induction h with
  | nil => simp [lastWritten]
  | cons a h ih =>
    obtain ⟨k', v⟩ := a
    simp only [lastWritten, List.map_cons, List.mem_cons, not_or]
    cases hl : lastWritten h k with
    | some w => simp [hl] at ih ⊢; intro _; exact ih
    | none =>
      simp only [hl, true_iff] at ih
      by_cases h' : k' = k
      · simp [h']
      · simp only [h', if_false, true_iff]; exact ⟨fun e => h' e.symm, ih⟩

theorem firstWritten_none {K : Type} [DecidableEq K] (h : List (K × Bytes)) (k : K) :
    firstWritten h k = none ↔ k ∉ h.map (·.1) := by
  induction h with
  | nil => simp [firstWritten]
  | cons a h ih =>
    obtain ⟨k', v⟩ := a
    simp only [firstWritten, List.map_cons, List.mem_cons, not_or]
    by_cases h' : k' = k
    · simp [h']
    · simp only [h', if_false, ih]; exact ⟨fun e => ⟨fun x => h' x.symm, e⟩, fun e => e.2⟩

theorem first_eq_last_of_nodup {K : Type} [BEq K] [LawfulBEq K] [DecidableEq K] (h : List (K × Bytes)) (k : K)
    (hc : (h.map (·.1)).count k ≤ 1) : firstWritten h k = lastWritten h k := by
  induction h with
  | nil => rfl
  | cons a h ih =>
    obtain ⟨k', v⟩ := a
    simp only [firstWritten, lastWritten]
    simp only [List.map_cons, List.count_cons] at hc
    by_cases h' : k' = k
    · subst h'
      simp only [beq_self_eq_true, if_true] at hc
      have : lastWritten h k' = none := by
        rw [lastWritten_none, ← List.count_eq_zero]; omega
      simp [this]
    · have hc' : (h.map (·.1)).count k ≤ 1 := by omega
      rw [if_neg h', ih hc']
      cases lastWritten h k <;> simp [h']

theorem indexKey_inj (i j : Nat) (h : indexKey i = indexKey j) : i = j := by
  have hi := Nat.ofDigitChars_toDigits (b := 10) (n := i) (by decide) (by decide)
  have hj := Nat.ofDigitChars_toDigits (b := 10) (n := j) (by decide) (by decide)
  unfold indexKey at h
  rw [h] at hi
  exact hi.symm.trans hj

theorem lastWritten_index (h : List (Nat × Bytes)) (i : Nat) :
    lastWritten (indexHistory h) (indexKey i) = lastWritten h i := by
  induction h with
  | nil => rfl
  | cons a h ih =>
    simp only [indexHistory, List.map_cons, lastWritten] at ih ⊢
    rw [ih]
    cases lastWritten h i with
    | some w => rfl
    | none =>
      by_cases e : a.1 = i
      · simp [e]
      · have : ¬ indexKey a.1 = indexKey i := fun x => e (indexKey_inj _ _ x)
        simp [e, this]

theorem count_index (h : List (Nat × Bytes)) (i : Nat) :
    ((indexHistory h).map (·.1)).count (indexKey i) = (h.map (·.1)).count i := by
  induction h with
  | nil => rfl
  | cons a h ih =>
    simp only [indexHistory, List.map_cons, List.count_cons] at ih ⊢
    rw [ih]
    by_cases e : a.1 = i
    · simp [e]
    · have : ¬ indexKey a.1 = indexKey i := fun x => e (indexKey_inj _ _ x)
      simp [e, this]

theorem find_none (s : Store) (k : List Char) : find s k = none ↔ k ∉ s.map (·.1) := by
  induction s with
  | nil => simp [find]
  | cons a s ih =>
    obtain ⟨k', v⟩ := a
    simp only [find, List.map_cons, List.mem_cons, not_or]
    by_cases h' : k' = k
    · simp [h']
    · simp only [h', if_false, ih]; exact ⟨fun e => ⟨fun x => h' x.symm, e⟩, fun e => e.2⟩

theorem memPut_nodup (s : Store) (k : List Char) (v : Bytes) (h : (s.map (·.1)).Nodup) :
    ((memPut s k v).map (·.1)).Nodup := by
  unfold memPut
  split
  · exact h
  · rename_i hn
    rw [find_none] at hn
    rw [List.map_append, List.nodup_append]
    refine ⟨h, by simp, ?_⟩
    intro a ha b hb
    simp at hb
    subst hb
    intro e; subst e; exact hn ha

theorem replace_keys (s : Store) (k : List Char) (v : Bytes) :
    (replace s k v).map (·.1) = if k ∈ s.map (·.1) then s.map (·.1) else s.map (·.1) ++ [k] := by
  induction s with
  | nil => simp [replace]
  | cons a s ih =>
    obtain ⟨k0, v0⟩ := a
    simp only [replace]
    by_cases h : k0 = k
    · subst h; simp
    · rw [if_neg h]; simp only [List.map_cons, ih, List.mem_cons]
      have h' : k ≠ k0 := fun e => h e.symm
      by_cases hm : k ∈ s.map (·.1) <;> simp [hm, h']

theorem replace_nodup (s : Store) (k : List Char) (v : Bytes) (h : (s.map (·.1)).Nodup) :
    ((replace s k v).map (·.1)).Nodup := by
  rw [replace_keys]
  split
  · exact h
  · rename_i hn
    rw [List.nodup_append]
    refine ⟨h, by simp, ?_⟩
    intro a ha b hb
    simp at hb
    subst hb
    intro e; subst e; exact hn ha

theorem runMem_nodup (s : Store) (h : List (List Char × Bytes)) (hs : (s.map (·.1)).Nodup) :
    ((runMem s h).map (·.1)).Nodup := by
  induction h generalizing s with
  | nil => exact hs
  | cons a h ih => exact ih _ (memPut_nodup s a.1 a.2 hs)

theorem runLdb_nodup (s : Store) (h : List (List Char × Bytes)) (hs : (s.map (·.1)).Nodup) :
    ((runLdb s h).map (·.1)).Nodup := by
  induction h generalizing s with
  | nil => exact hs
  | cons a h ih => exact ih _ (replace_nodup s a.1 a.2 hs)

/-! ### C32 -/

/-- **C32 (LevelDB store).** After any history of successful writes, `Get(k)` yields the value last written under `k`, and
reports a key missing exactly when it was never written. -/
theorem C32_leveldb_last_write (h : List (List Char × Bytes)) (k : List Char) :
    ldbGet (runLdb [] h) k = lastWritten h k ∧ (ldbGet (runLdb [] h) k = none ↔ k ∉ h.map (·.1)) := by
  have := find_runLdb [] h k
  have e : ldbGet (runLdb [] h) k = lastWritten h k := by
    unfold ldbGet; rw [this]; cases lastWritten h k <;> simp [find]
  exact ⟨e, by rw [e]; exact lastWritten_none h k⟩

/-- **C32 (memory store), what the code does.** `Get(k)` yields the value *first* written under `k`. -/
theorem C32_memory_first_write (h : List (List Char × Bytes)) (k : List Char) :
    memGet (runMem [] h) k = firstWritten h k := by
  unfold memGet; rw [find_runMem]; simp [find]

/-- **C32 (memory store) is violated on overwrite**: writing 2 under a key that holds 1 leaves 1. -/
theorem C32_memory_overwrite_violated :
    ∃ (h : List (List Char × Bytes)) (k : List Char), memGet (runMem [] h) k ≠ lastWritten h k :=
  ⟨[(['k'], [1]), (['k'], [2])], ['k'], by decide⟩

/-- **C32 (memory store), partial.** A key written at most once (whatever happens to other keys) reads back as last written;
keys never written are reported missing. Missing: keys written more than once (see `C32_memory_overwrite_violated`). -/
theorem C32_memory_single_write_partial (h : List (List Char × Bytes)) (k : List Char) (hc : (h.map (·.1)).count k ≤ 1) :
    memGet (runMem [] h) k = lastWritten h k ∧ (memGet (runMem [] h) k = none ↔ k ∉ h.map (·.1)) := by
  rw [C32_memory_first_write]
  exact ⟨first_eq_last_of_nodup h k hc, firstWritten_none h k⟩

/-- **C32 (IndexStore).** The same through the index interface: two indices never share an entry. -/
theorem C32_index_store (h : List (Nat × Bytes)) (i : Nat) :
    ldbGet (runLdb [] (indexHistory h)) (indexKey i) = lastWritten h i ∧
    ((h.map (·.1)).count i ≤ 1 → memGet (runMem [] (indexHistory h)) (indexKey i) = lastWritten h i) := by
  constructor
  · rw [(C32_leveldb_last_write _ _).1, lastWritten_index]
  · intro hc
    rw [(C32_memory_single_write_partial _ _ (by rw [count_index]; exact hc)).1, lastWritten_index]

/-- **C32 (Count).** Both stores hold one entry per distinct key written: no key twice, and exactly the written keys. -/
theorem C32_count (h : List (List Char × Bytes)) :
    (∃ ks : List (List Char), ks.Nodup ∧ (∀ k, k ∈ ks ↔ k ∈ h.map (·.1)) ∧ count (runMem [] h) = ks.length) ∧
    (∃ ks : List (List Char), ks.Nodup ∧ (∀ k, k ∈ ks ↔ k ∈ h.map (·.1)) ∧ count (runLdb [] h) = ks.length) := by
  constructor
  · refine ⟨(runMem [] h).map (·.1), runMem_nodup [] h (by simp), fun k => ?_, by simp [count]⟩
    have h1 := find_none (runMem [] h) k
    have h2 := C32_memory_first_write h k
    unfold memGet at h2
    rw [h2, firstWritten_none] at h1
    exact not_iff_not.mp h1.symm
  · refine ⟨(runLdb [] h).map (·.1), runLdb_nodup [] h (by simp), fun k => ?_, by simp [count]⟩
    have h1 := find_none (runLdb [] h) k
    have h2 := (C32_leveldb_last_write h k).2
    unfold ldbGet at h2
    exact not_iff_not.mp (h1.symm.trans h2)

/-- **C32 (Buffer overload).** A found value is returned byte for byte. -/
theorem C32_get_buffer (h : List (List Char × Bytes)) (k : List Char) (v : Bytes) (hv : lastWritten h k = some v) :
    getBuffer (ldbGet (runLdb [] h) k) = (true, v) := by
  rw [(C32_leveldb_last_write h k).1, hv]; rfl

/-- A failed leveldb write throws and changes nothing the caller can see. -/
theorem C32_failed_put_throws (s : Store) (k : List Char) (v : Bytes) : ldbPut s k v false = none := rfl

example : ldbGet (runLdb [] [(['a'], [1]), (['b'], [2]), (['a'], [3])]) ['a'] = some [3] := by decide
example : ((([(['a'], [1]), (['b'], [2])] : List (List Char × Bytes))).map (·.1)).count ['a'] ≤ 1 ∧
    memGet (runMem [] [(['a'], [1]), (['b'], [2])]) ['a'] = some [1] := by decide
example : ldbGet (runLdb [] (indexHistory [(1, [1]), (11, [2]), (1, [7])])) (indexKey 1) = some [7] := by decide
example : count (runMem [] [(['a'], [1]), (['b'], [2]), (['a'], [3])]) = 2 := by decide

end Yacl.Kv
