import Verif.Buffer.Model
import Mathlib.Data.List.Nodup
/-! C69 (contents) and C70 (ownership) of `yacl::Buffer`. -/
namespace Yacl.Buf

/-- States a legal program reaches. -/
inductive Reach : St → Prop
  | init : Reach init
  | step {s c} : Reach s → Legal s c → Reach (step s c)

/-- The pointers passed to a deleter or to `delete[]`, in order. -/
def St.freedPtrs (s : St) : List Nat := s.freed.filterMap (·.1)

structure Inv (s : St) : Prop where
  sz : ∀ i, 0 ≤ (s.bufs i).size ∧ (s.bufs i).size ≤ (s.bufs i).cap
  nul : ∀ i, (s.bufs i).ptr = none → (s.bufs i).cap = 0
  own : ∀ i p, (s.bufs i).ptr = some p → p < s.next ∧ s.kind p = (s.bufs i).del ∧ ((s.mem p).length : Int) = (s.bufs i).cap ∧
    p ∉ s.freedPtrs ∧ p ∉ s.released
  uniq : ∀ i j p, (s.bufs i).ptr = some p → (s.bufs j).ptr = some p → i = j
  fnd : s.freedPtrs.Nodup
  fkind : ∀ p d, (some p, d) ∈ s.freed → s.kind p = d
  flt : ∀ p ∈ s.freedPtrs, p < s.next ∧ p ∉ s.released
  rlt : ∀ p ∈ s.released, p < s.next
  rnd : s.released.Nodup
  all : ∀ p, p < s.next → p ∈ s.freedPtrs ∨ p ∈ s.released ∨ ∃ i, (s.bufs i).ptr = some p

theorem inv_init : Inv init := by
  constructor <;> simp [init, Buf.empty, St.freedPtrs]

theorem mem_freed {s : St} {p : Nat} {d : Option Nat} (h : (some p, d) ∈ s.freed) : p ∈ s.freedPtrs :=
  List.mem_filterMap.mpr ⟨_, h, rfl⟩

/-- Changing size within capacity. -/
theorem inv_size {s : St} (h : Inv s) (i : Nat) (n : Int) (h0 : 0 ≤ n) (h1 : n ≤ (s.bufs i).cap) :
    Inv (s.setBuf i { s.bufs i with size := n }) := by
  have hb : ∀ j, (Function.update s.bufs i { s.bufs i with size := n } j).ptr = (s.bufs j).ptr ∧
      (Function.update s.bufs i { s.bufs i with size := n } j).cap = (s.bufs j).cap ∧
      (Function.update s.bufs i { s.bufs i with size := n } j).del = (s.bufs j).del := by
    intro j
    by_cases hj : j = i
    · subst hj; simp
    · simp [Function.update_of_ne hj]
  refine ⟨?_, ?_, ?_, ?_, h.fnd, h.fkind, h.flt, h.rlt, h.rnd, ?_⟩ <;> simp only [St.setBuf, hb]
  · intro j
    by_cases hj : j = i
    · subst hj; simp [h0, h1]
    · simpa [Function.update_of_ne hj] using h.sz j
  · exact h.nul
  · exact h.own
  · exact h.uniq
  · exact h.all

/-- Freeing a buffer's memory and giving it a fresh allocation. -/
theorem inv_realloc {s : St} (h : Inv s) (i : Nat) (content : List Byte) (size cap : Int)
    (h0 : 0 ≤ size) (h1 : size ≤ cap) (hl : (content.length : Int) = cap) :
    Inv ((reset (s.alloc content none) i).setBuf i ⟨some s.next, size, cap, none⟩) := by
  have hbuf : ((reset (s.alloc content none) i).setBuf i ⟨some s.next, size, cap, none⟩).bufs =
      Function.update s.bufs i ⟨some s.next, size, cap, none⟩ := by
    simp [reset, St.setBuf, St.alloc, Function.update_idem]
  have hfr : ((reset (s.alloc content none) i).setBuf i ⟨some s.next, size, cap, none⟩).freed =
      s.freed ++ [((s.bufs i).ptr, (s.bufs i).del)] := rfl
  have hfp : ((reset (s.alloc content none) i).setBuf i ⟨some s.next, size, cap, none⟩).freedPtrs =
      s.freedPtrs ++ (s.bufs i).ptr.toList := by
    simp only [St.freedPtrs, hfr, List.filterMap_append]
    congr 1
  have hkm : ∀ p, p < s.next → Function.update s.kind s.next none p = s.kind p ∧ Function.update s.mem s.next content p = s.mem p := by
    intro p hp
    have : p ≠ s.next := by omega
    simp [Function.update_of_ne this]
  have hnx : ((reset (s.alloc content none) i).setBuf i ⟨some s.next, size, cap, none⟩).next = s.next + 1 := rfl
  have hrl : ((reset (s.alloc content none) i).setBuf i ⟨some s.next, size, cap, none⟩).released = s.released := rfl
  have hnf : s.next ∉ s.freedPtrs := fun hm => absurd (h.flt _ hm).1 (by omega)
  have hnr : s.next ∉ s.released := fun hm => absurd (h.rlt _ hm) (by omega)
  have hop : ∀ p ∈ (s.bufs i).ptr.toList, (s.bufs i).ptr = some p := by
    intro p hp; simpa using hp
  refine ⟨?_, ?_, ?_, ?_, ?_, ?_, ?_, ?_, ?_, ?_⟩
  · intro j
    rw [hbuf]
    by_cases hj : j = i
    · subst hj; simp [h0, h1]
    · simpa [Function.update_of_ne hj] using h.sz j
  · intro j
    rw [hbuf]
    by_cases hj : j = i
    · subst hj; simp
    · simpa [Function.update_of_ne hj] using h.nul j
  · intro j p
    rw [hbuf, hfp, hnx, hrl]
    show _ → _ ∧ Function.update s.kind s.next none p = _ ∧ ((Function.update s.mem s.next content p).length : Int) = _ ∧ _
    by_cases hj : j = i
    · subst hj
      simp only [Function.update_self, Option.some.injEq]
      rintro rfl
      simp only [Function.update_self]
      refine ⟨by omega, trivial, hl, ?_, hnr⟩
      rw [List.mem_append, not_or]
      exact ⟨hnf, fun hm => absurd (h.own j _ (hop _ hm)).1 (by omega)⟩
    · rw [Function.update_of_ne hj]
      intro hp
      obtain ⟨a, b, c, d, e⟩ := h.own j p hp
      rw [(hkm p a).1, (hkm p a).2]
      refine ⟨by omega, b, c, ?_, e⟩
      rw [List.mem_append, not_or]
      exact ⟨d, fun hm => hj (h.uniq j i p hp (hop _ hm))⟩
  · intro j k p
    rw [hbuf]
    by_cases hj : j = i <;> by_cases hk : k = i
    · subst hj hk; simp
    · subst hj
      rw [Function.update_self, Function.update_of_ne hk]
      intro e1 e2
      simp only [Option.some.injEq] at e1
      exact absurd (h.own k p e2).1 (by omega)
    · subst hk
      rw [Function.update_self, Function.update_of_ne hj]
      intro e1 e2
      simp only [Option.some.injEq] at e2
      exact absurd (h.own j p e1).1 (by omega)
    · rw [Function.update_of_ne hj, Function.update_of_ne hk]
      exact h.uniq j k p
  · rw [hfp]
    rw [List.nodup_append]
    refine ⟨h.fnd, by cases (s.bufs i).ptr <;> simp, ?_⟩
    intro a ha b hb e
    subst e
    exact (h.own i a (hop a hb)).2.2.2.1 ha
  · intro p d
    rw [hfr]
    show _ → Function.update s.kind s.next none p = d
    intro hm
    rcases List.mem_append.mp hm with hm | hm
    · rw [(hkm p (h.flt p (mem_freed hm)).1).1]; exact h.fkind p d hm
    · simp only [List.mem_singleton, Prod.mk.injEq] at hm
      obtain ⟨e1, e2⟩ := hm
      obtain ⟨a, b, _⟩ := h.own i p e1.symm
      rw [(hkm p a).1, b, e2]
  · intro p
    rw [hfp, hnx, hrl]
    intro hm
    rcases List.mem_append.mp hm with hm | hm
    · exact ⟨by have := (h.flt p hm).1; omega, (h.flt p hm).2⟩
    · obtain ⟨a, _, _, _, e⟩ := h.own i p (hop p hm)
      exact ⟨by omega, e⟩
  · intro p hp
    have := h.rlt p hp
    rw [hnx]; omega
  · exact h.rnd
  · intro p hp
    rw [hnx] at hp
    rw [hfp, hrl, hbuf]
    by_cases hpn : p = s.next
    · subst hpn; exact Or.inr (Or.inr ⟨i, by simp⟩)
    · rcases h.all p (by omega) with hh | hh | ⟨j, hj⟩
      · exact Or.inl (by simp [hh])
      · exact Or.inr (Or.inl hh)
      · by_cases hji : j = i
        · subst hji; exact Or.inl (by simp [hj])
        · exact Or.inr (Or.inr ⟨j, by rw [Function.update_of_ne hji]; exact hj⟩)

theorem grown_length (old : List Byte) (n len : Nat) (junk : Nat → Byte) (h : n ≤ len) : (grown old n len junk).length = len := by
  simp [grown]; omega

theorem inv_resize {s : St} (h : Inv s) (i : Nat) (n : Int) (h0 : 0 ≤ n) (junk : Nat → Byte) : Inv (resize s i n junk) := by
  rw [resize]
  dsimp only
  split
  · exact inv_size h i n h0 (by assumption)
  · apply inv_realloc h i _ n n h0 (Int.le_refl n)
    rw [grown_length _ _ _ _ (by omega)]; omega

theorem inv_reserve {s : St} (h : Inv s) (i : Nat) (n : Int) (junk : Nat → Byte) : Inv ((reserve s i n junk).getD s) := by
  rw [reserve]
  dsimp only
  split
  · exact h
  · split
    · exact h
    · have := h.sz i
      apply inv_realloc h i _ (s.bufs i).size n this.1 (by omega)
      rw [grown_length _ _ _ _ (by omega)]; omega

theorem inv_reset {s : St} (h : Inv s) (i : Nat) : Inv (reset s i) := by
  have hbuf : (reset s i).bufs = Function.update s.bufs i Buf.empty := rfl
  have hfp : (reset s i).freedPtrs = s.freedPtrs ++ (s.bufs i).ptr.toList := by
    simp only [St.freedPtrs, reset, St.setBuf, List.filterMap_append]
    congr 1
  have hop : ∀ p ∈ (s.bufs i).ptr.toList, (s.bufs i).ptr = some p := by
    intro p hp; simpa using hp
  refine ⟨?_, ?_, ?_, ?_, ?_, ?_, ?_, h.rlt, h.rnd, ?_⟩
  · intro j
    rw [hbuf]
    by_cases hj : j = i
    · subst hj; simp [Buf.empty]
    · simpa [Function.update_of_ne hj] using h.sz j
  · intro j
    rw [hbuf]
    by_cases hj : j = i
    · subst hj; simp [Buf.empty]
    · simpa [Function.update_of_ne hj] using h.nul j
  · intro j p
    rw [hbuf, hfp]
    by_cases hj : j = i
    · subst hj; simp [Buf.empty]
    · rw [Function.update_of_ne hj]
      intro hp
      obtain ⟨a, b, c, d, e⟩ := h.own j p hp
      refine ⟨a, b, c, ?_, e⟩
      rw [List.mem_append, not_or]
      exact ⟨d, fun hm => hj (h.uniq j i p hp (hop _ hm))⟩
  · intro j k p
    rw [hbuf]
    by_cases hj : j = i <;> by_cases hk : k = i
    · subst hj hk; simp
    · subst hj; simp [Buf.empty]
    · subst hk; simp [Buf.empty]
    · rw [Function.update_of_ne hj, Function.update_of_ne hk]
      exact h.uniq j k p
  · rw [hfp, List.nodup_append]
    refine ⟨h.fnd, by cases (s.bufs i).ptr <;> simp, ?_⟩
    intro a ha b hb e
    subst e
    exact (h.own i a (hop a hb)).2.2.2.1 ha
  · intro p d hm
    rcases List.mem_append.mp (show (some p, d) ∈ s.freed ++ [((s.bufs i).ptr, (s.bufs i).del)] from hm) with hm | hm
    · exact h.fkind p d hm
    · simp only [List.mem_singleton, Prod.mk.injEq] at hm
      obtain ⟨e1, e2⟩ := hm
      rw [e2]; exact (h.own i p e1.symm).2.1
  · intro p
    rw [hfp]
    intro hm
    rcases List.mem_append.mp hm with hm | hm
    · exact h.flt p hm
    · obtain ⟨a, _, _, _, e⟩ := h.own i p (hop p hm)
      exact ⟨a, e⟩
  · intro p hp
    rw [hfp, hbuf]
    rcases h.all p hp with hh | hh | ⟨j, hj⟩
    · exact Or.inl (by simp [hh])
    · exact Or.inr (Or.inl hh)
    · by_cases hji : j = i
      · subst hji; exact Or.inl (by simp [hj])
      · exact Or.inr (Or.inr ⟨j, by rw [Function.update_of_ne hji]; exact hj⟩)

theorem inv_release {s : St} (h : Inv s) (i : Nat) : Inv (release s i) := by
  have hbuf : (release s i).bufs = Function.update s.bufs i { s.bufs i with ptr := none, size := 0, cap := 0 } := rfl
  have hrl : (release s i).released = s.released ++ (s.bufs i).ptr.toList := rfl
  have hop : ∀ p ∈ (s.bufs i).ptr.toList, (s.bufs i).ptr = some p := by
    intro p hp; simpa using hp
  refine ⟨?_, ?_, ?_, ?_, h.fnd, h.fkind, ?_, ?_, ?_, ?_⟩
  · intro j
    rw [hbuf]
    by_cases hj : j = i
    · subst hj; simp
    · simpa [Function.update_of_ne hj] using h.sz j
  · intro j
    rw [hbuf]
    by_cases hj : j = i
    · subst hj; simp
    · simpa [Function.update_of_ne hj] using h.nul j
  · intro j p
    rw [hbuf, hrl]
    by_cases hj : j = i
    · subst hj; simp
    · rw [Function.update_of_ne hj]
      intro hp
      obtain ⟨a, b, c, d, e⟩ := h.own j p hp
      refine ⟨a, b, c, d, ?_⟩
      rw [List.mem_append, not_or]
      exact ⟨e, fun hm => hj (h.uniq j i p hp (hop _ hm))⟩
  · intro j k p
    rw [hbuf]
    by_cases hj : j = i <;> by_cases hk : k = i
    · subst hj hk; simp
    · subst hj; simp
    · subst hk; simp
    · rw [Function.update_of_ne hj, Function.update_of_ne hk]
      exact h.uniq j k p
  · intro p hp
    rw [hrl, List.mem_append, not_or]
    exact ⟨(h.flt p hp).1, (h.flt p hp).2, fun hm => (h.own i p (hop p hm)).2.2.2.1 hp⟩
  · intro p
    rw [hrl]
    intro hm
    rcases List.mem_append.mp hm with hm | hm
    · exact h.rlt p hm
    · exact (h.own i p (hop p hm)).1
  · rw [hrl, List.nodup_append]
    refine ⟨h.rnd, by cases (s.bufs i).ptr <;> simp, ?_⟩
    intro a ha b hb e
    subst e
    exact (h.own i a (hop a hb)).2.2.2.2 ha
  · intro p hp
    rw [hrl, hbuf]
    rcases h.all p hp with hh | hh | ⟨j, hj⟩
    · exact Or.inl hh
    · exact Or.inr (Or.inl (by simp [hh]))
    · by_cases hji : j = i
      · subst hji; exact Or.inr (Or.inl (by simp [hj]))
      · exact Or.inr (Or.inr ⟨j, by rw [Function.update_of_ne hji]; exact hj⟩)

/-- A fresh allocation given to an empty buffer. -/
theorem inv_fresh {s : St} (h : Inv s) (i : Nat) (hi : s.bufs i = Buf.empty) (content : List Byte) (size cap : Int)
    (k : Option Nat) (h0 : 0 ≤ size) (h1 : size ≤ cap) (hl : (content.length : Int) = cap) :
    Inv ((s.alloc content k).setBuf i ⟨some s.next, size, cap, k⟩) := by
  have hkm : ∀ p, p < s.next → Function.update s.kind s.next k p = s.kind p ∧ Function.update s.mem s.next content p = s.mem p := by
    intro p hp
    have : p ≠ s.next := by omega
    simp [Function.update_of_ne this]
  have hbuf : ((s.alloc content k).setBuf i ⟨some s.next, size, cap, k⟩).bufs = Function.update s.bufs i ⟨some s.next, size, cap, k⟩ := rfl
  have hnx : ((s.alloc content k).setBuf i ⟨some s.next, size, cap, k⟩).next = s.next + 1 := rfl
  have hnf : s.next ∉ s.freedPtrs := fun hm => absurd (h.flt _ hm).1 (by omega)
  have hnr : s.next ∉ s.released := fun hm => absurd (h.rlt _ hm) (by omega)
  refine ⟨?_, ?_, ?_, ?_, h.fnd, ?_, ?_, ?_, h.rnd, ?_⟩
  · intro j
    rw [hbuf]
    by_cases hj : j = i
    · subst hj; simp [h0, h1]
    · simpa [Function.update_of_ne hj] using h.sz j
  · intro j
    rw [hbuf]
    by_cases hj : j = i
    · subst hj; simp
    · simpa [Function.update_of_ne hj] using h.nul j
  · intro j p
    rw [hbuf, hnx]
    show _ → _ ∧ Function.update s.kind s.next k p = _ ∧ ((Function.update s.mem s.next content p).length : Int) = _ ∧ p ∉ s.freedPtrs ∧ p ∉ s.released
    by_cases hj : j = i
    · subst hj
      simp only [Function.update_self, Option.some.injEq]
      rintro rfl
      simp only [Function.update_self]
      exact ⟨by omega, trivial, hl, hnf, hnr⟩
    · rw [Function.update_of_ne hj]
      intro hp
      obtain ⟨a, b, c, d, e⟩ := h.own j p hp
      rw [(hkm p a).1, (hkm p a).2]
      exact ⟨by omega, b, c, d, e⟩
  · intro j l p
    rw [hbuf]
    by_cases hj : j = i <;> by_cases hk : l = i
    · subst hj hk; simp
    · subst hj
      rw [Function.update_self, Function.update_of_ne hk]
      intro e1 e2
      simp only [Option.some.injEq] at e1
      exact absurd (h.own l p e2).1 (by omega)
    · subst hk
      rw [Function.update_self, Function.update_of_ne hj]
      intro e1 e2
      simp only [Option.some.injEq] at e2
      exact absurd (h.own j p e1).1 (by omega)
    · rw [Function.update_of_ne hj, Function.update_of_ne hk]
      exact h.uniq j l p
  · intro p d hm
    show Function.update s.kind s.next k p = d
    rw [(hkm p (h.flt p (mem_freed hm)).1).1]; exact h.fkind p d hm
  · intro p hp
    rw [hnx]
    exact ⟨by have := (h.flt p hp).1; omega, (h.flt p hp).2⟩
  · intro p hp
    have := h.rlt p hp
    rw [hnx]; omega
  · intro p hp
    rw [hnx] at hp
    rw [hbuf]
    by_cases hpn : p = s.next
    · subst hpn; exact Or.inr (Or.inr ⟨i, by simp⟩)
    · rcases h.all p (by omega) with hh | hh | ⟨j, hj⟩
      · exact Or.inl hh
      · exact Or.inr (Or.inl hh)
      · refine Or.inr (Or.inr ⟨j, ?_⟩)
        have hji : j ≠ i := by rintro rfl; simp [hi, Buf.empty] at hj
        rw [Function.update_of_ne hji]; exact hj

theorem inv_mem {s : St} (h : Inv s) (p : Nat) (l : List Byte) (hl : l.length = (s.mem p).length) :
    Inv { s with mem := Function.update s.mem p l } := by
  refine ⟨h.sz, h.nul, ?_, h.uniq, h.fnd, h.fkind, h.flt, h.rlt, h.rnd, h.all⟩
  intro i q hq
  obtain ⟨a, b, c, d, e⟩ := h.own i q hq
  refine ⟨a, b, ?_, d, e⟩
  by_cases hqp : q = p
  · subst hqp
    show ((Function.update s.mem q l q).length : Int) = _
    rw [Function.update_self, hl]; exact c
  · show ((Function.update s.mem p l q).length : Int) = _
    rw [Function.update_of_ne hqp]; exact c

theorem inv_put {s : St} (h : Inv s) (i : Nat) (d : List Byte) (hd : (d.length : Int) ≤ (s.bufs i).cap) : Inv (put s i d) := by
  rw [put]
  split
  · rename_i p hp
    apply inv_mem h
    have := (h.own i p hp).2.2.1
    simp only [over, List.length_append, List.length_drop]; omega
  · exact h

theorem inv_move {s : St} (h : Inv s) (i j : Nat) : Inv (moveAssign s i j) := by
  rw [moveAssign]
  split
  · exact h
  · rename_i hij
    -- the permutation of the buffers
    let σ : Nat → Nat := fun k => if k = j then i else if k = i then j else k
    have hb : ∀ k, (Function.update (Function.update s.bufs i (s.bufs j)) j (s.bufs i)) k = s.bufs (σ k) := by
      intro k
      by_cases h1 : k = j
      · subst h1; simp [σ]
      · rw [Function.update_of_ne h1]
        by_cases h2 : k = i
        · subst h2; simp [σ, h1]
        · rw [Function.update_of_ne h2]; simp [σ, h1, h2]
    have hσ : ∀ k, σ (σ k) = k := by
      intro k
      by_cases h1 : k = j
      · subst h1; simp only [σ, if_true]; split <;> simp_all
      · by_cases h2 : k = i
        · subst h2; simp [σ, h1]
        · simp [σ, h1, h2]
    refine ⟨?_, ?_, ?_, ?_, h.fnd, h.fkind, h.flt, h.rlt, h.rnd, ?_⟩ <;> simp only [St.setBuf, hb]
    · intro k; exact h.sz _
    · intro k; exact h.nul _
    · intro k; exact h.own _
    · intro a b p ha hb'
      have := h.uniq _ _ p ha hb'
      rw [← hσ a, this, hσ]
    · intro p hp
      rcases h.all p hp with hh | hh | ⟨k, hk⟩
      · exact Or.inl hh
      · exact Or.inr (Or.inl hh)
      · exact Or.inr (Or.inr ⟨σ k, by rw [hσ]; exact hk⟩)

theorem bytes_length {s : St} (h : Inv s) (i : Nat) : ((s.bytes (s.bufs i)).length : Int) = (s.bufs i).cap := by
  cases hp : (s.bufs i).ptr with
  | none => simp [St.bytes, hp, h.nul i hp]
  | some p => simp only [St.bytes, hp]; exact (h.own i p hp).2.2.1

theorem contents_length {s : St} (h : Inv s) (i : Nat) : ((s.contents i).length : Int) = (s.bufs i).size := by
  have := bytes_length h i
  have := h.sz i
  simp only [St.contents, List.length_take]; omega

theorem resize_size (s : St) (i : Nat) (n : Int) (junk : Nat → Byte) : ((resize s i n junk).bufs i).size = n := by
  rw [resize]; dsimp only
  split <;> simp [St.setBuf]

theorem inv_step {s : St} (h : Inv s) (c : Call) (hl : Legal s c) : Inv (step s c) := by
  cases c with
  | construct i size cap junk =>
    simp only [step, construct]
    split
    · rename_i hc
      exact inv_fresh h i hl _ size cap none hc.1 hc.2 (by simp; omega)
    · exact h
  | constructCopy i d junk =>
    have h1 := inv_resize h i d.length (by omega) junk
    refine inv_put h1 i d ?_
    have := (h1.sz i).2
    rw [resize_size] at this; exact this
  | adopt i d k => exact inv_fresh h i hl d _ _ k (by omega) (Int.le_refl _) rfl
  | copyAssign i j junk =>
    simp only [step, copyAssign]
    split
    · exact h
    · have h1 := inv_resize h i (s.bufs j).size (h.sz j).1 junk
      refine inv_put h1 i _ ?_
      have := (h1.sz i).2
      rw [resize_size] at this
      rw [contents_length h j]; exact this
  | moveAssign i j => exact inv_move h i j
  | resize i n junk => exact inv_resize h i n hl junk
  | reserve i n junk => exact inv_reserve h i n junk
  | release i => exact inv_release h i
  | reset i => exact inv_reset h i
  | store i k v =>
    simp only [step, store]
    split
    · apply inv_mem h; simp
    · exact h

theorem reach_inv {s : St} (h : Reach s) : Inv s := by
  induction h with
  | init => exact inv_init
  | step _ hl ih => exact inv_step ih _ hl

/-! ### C70: ownership -/

/-- **C70**: whatever legal calls a program makes, no memory is freed twice, every block is freed with the deleter it came
with (`delete[]` for memory the buffer allocated), and memory handed out by `release()` is never freed by a buffer. -/
theorem C70_freed_once_by_right_deleter (s : St) (h : Reach s) :
    s.freedPtrs.Nodup ∧ (∀ p d, (some p, d) ∈ s.freed → s.kind p = d) ∧ (∀ p ∈ s.released, p ∉ s.freedPtrs) := by
  have hi := reach_inv h
  exact ⟨hi.fnd, hi.fkind, fun p hp hf => (hi.flt p hf).2 hp⟩

/-- **C70**: the memory of a buffer is neither freed nor released, and belongs to no other buffer. -/
theorem C70_owned_memory_is_live (s : St) (h : Reach s) (i p : Nat) (hp : (s.bufs i).ptr = some p) :
    p ∉ s.freedPtrs ∧ p ∉ s.released ∧ ∀ j, (s.bufs j).ptr = some p → j = i := by
  have hi := reach_inv h
  obtain ⟨_, _, _, d, e⟩ := hi.own i p hp
  exact ⟨d, e, fun j hj => hi.uniq j i p hj hp⟩

/-- **C70**: nothing leaks - once every buffer is gone (destroyed, reset or released), every block ever allocated or adopted
was freed or handed back. -/
theorem C70_no_leak (s : St) (h : Reach s) (hd : ∀ i, (s.bufs i).ptr = none) (p : Nat) (hp : p < s.next) :
    p ∈ s.freedPtrs ∨ p ∈ s.released := by
  rcases (reach_inv h).all p hp with h1 | h1 | ⟨i, hi⟩
  · exact Or.inl h1
  · exact Or.inr h1
  · rw [hd i] at hi; cases hi

/-! ### C69: contents -/

/-- The bytes of the other buffers do not change. -/
def Frame (s s' : St) (i : Nat) : Prop := ∀ k, k ≠ i → s'.contents k = s.contents k

theorem contents_def (s : St) (i p : Nat) (h : (s.bufs i).ptr = some p) : s.contents i = (s.mem p).take (s.bufs i).size.toNat := by
  simp [St.contents, St.bytes, h]

theorem contents_mem (s : St) (m : Nat → List Byte) (i p : Nat) (h : (s.bufs i).ptr = some p) :
    ({ s with mem := m } : St).contents i = (m p).take (s.bufs i).size.toNat := by
  simp [St.contents, St.bytes, h]

theorem realloc_contents {s : St} (h : Inv s) (i : Nat) (content : List Byte) (size cap : Int) :
    ((reset (s.alloc content none) i).setBuf i ⟨some s.next, size, cap, none⟩).contents i = content.take size.toNat ∧
    Frame s ((reset (s.alloc content none) i).setBuf i ⟨some s.next, size, cap, none⟩) i := by
  constructor
  · simp [St.contents, St.bytes, St.setBuf, reset, St.alloc]
  · intro k hk
    have e : ((reset (s.alloc content none) i).setBuf i ⟨some s.next, size, cap, none⟩).bufs k = s.bufs k := by
      simp [St.setBuf, reset, St.alloc, Function.update_of_ne hk]
    simp only [St.contents, St.bytes, e]
    cases hp : (s.bufs k).ptr with
    | none => rfl
    | some p =>
      have := (h.own k p hp).1
      show ((Function.update s.mem s.next content p)).take _ = _
      rw [Function.update_of_ne (by omega)]

/-- **C69**, resize: the size becomes `n`, the first `min n (old size)` bytes are kept, other buffers are untouched. -/
theorem C69_resize (s : St) (h : Reach s) (i : Nat) (n : Int) (hn : 0 ≤ n) (junk : Nat → Byte) :
    ((resize s i n junk).contents i).length = n.toNat ∧
    ((resize s i n junk).contents i).take (s.contents i).length = (s.contents i).take n.toNat ∧
    Frame s (resize s i n junk) i := by
  have hi := reach_inv h
  have hlen : ((resize s i n junk).contents i).length = n.toNat := by
    have := contents_length (inv_resize hi i n hn junk) i
    rw [resize_size] at this; omega
  refine ⟨hlen, ?_⟩
  have hsz := hi.sz i
  have hbl := bytes_length hi i
  have hcl : (s.contents i).length = (s.bufs i).size.toNat := by have := contents_length hi i; omega
  rw [hcl, resize]
  dsimp only
  split
  · constructor
    · simp [St.contents, St.setBuf, St.bytes, List.take_take, Nat.min_comm]
    · intro k hk
      simp [St.contents, St.setBuf, St.bytes, Function.update_of_ne hk]
  · obtain ⟨h1, h2⟩ := realloc_contents hi i (grown (s.bytes (s.bufs i)) (min n (s.bufs i).size).toNat n.toNat junk) n n
    refine ⟨?_, h2⟩
    rw [h1, List.take_take, grown]
    have e1 : (min n (s.bufs i).size).toNat = (s.bufs i).size.toNat := by omega
    have e2 : min (s.bufs i).size.toNat n.toNat = (s.bufs i).size.toNat := by omega
    rw [e1, e2, List.take_left' (by rw [List.length_take]; omega), St.contents, List.take_take, Nat.min_comm, e2]

/-- **C69**, reserve: accepted exactly when the new capacity is not below the size; contents and other buffers are kept and
the capacity is at least the one asked for. -/
theorem C69_reserve (s : St) (h : Reach s) (i : Nat) (n : Int) (junk : Nat → Byte) :
    match reserve s i n junk with
    | none => n < (s.bufs i).size
    | some s' => (s.bufs i).size ≤ n ∧ s'.contents i = s.contents i ∧ n ≤ (s'.bufs i).cap ∧ Frame s s' i := by
  have hi := reach_inv h
  have hsz := hi.sz i
  have hbl := bytes_length hi i
  rw [reserve]
  dsimp only
  by_cases h1 : n < (s.bufs i).size
  · simp [h1]
  · rw [if_neg h1]
    by_cases h2 : n ≤ (s.bufs i).cap
    · rw [if_pos h2]
      exact ⟨by omega, rfl, h2, fun _ _ => rfl⟩
    · rw [if_neg h2]
      obtain ⟨h3, h4⟩ := realloc_contents hi i (grown (s.bytes (s.bufs i)) (s.bufs i).size.toNat n.toNat junk) (s.bufs i).size n
      refine ⟨by omega, ?_, by simp [St.setBuf], h4⟩
      rw [h3, grown, List.take_left' (by rw [List.length_take]; omega)]; rfl

theorem put_contents {s : St} (h : Inv s) (i : Nat) (d : List Byte) (hd : (s.bufs i).size = d.length) :
    (put s i d).contents i = d ∧ Frame s (put s i d) i := by
  have hsz := h.sz i
  rw [put]
  split
  · rename_i p hp
    constructor
    · rw [contents_mem _ _ i p hp, Function.update_self, over, hd]
      simp
    · intro k hk
      cases hq : (s.bufs k).ptr with
      | none => simp [St.contents, St.bytes, hq]
      | some q =>
        rw [contents_mem _ _ k q hq, contents_def _ k q hq, Function.update_of_ne]
        rintro rfl
        exact hk (h.uniq k i q hq hp)
  · rename_i hp
    have hc := h.nul i hp
    have : d = [] := by
      apply List.eq_nil_of_length_eq_zero; omega
    subst this
    exact ⟨by simp [St.contents, St.bytes, hp], fun _ _ => rfl⟩

/-- **C69**, copy: the target gets the source's bytes and every other buffer, the source included, keeps its own. -/
theorem C69_copy (s : St) (h : Reach s) (i j : Nat) (junk : Nat → Byte) :
    (copyAssign s i j junk).contents i = s.contents j ∧ Frame s (copyAssign s i j junk) i := by
  have hi := reach_inv h
  rw [copyAssign]
  split
  · rename_i e; subst e; exact ⟨rfl, fun _ _ => rfl⟩
  · have h1 := inv_resize hi i (s.bufs j).size (hi.sz j).1 junk
    have h2 := (C69_resize s h i (s.bufs j).size (hi.sz j).1 junk).2.2
    obtain ⟨h3, h4⟩ := put_contents h1 i (s.contents j) (by rw [resize_size, contents_length hi j])
    exact ⟨h3, fun k hk => (h4 k hk).trans (h2 k hk)⟩

/-- **C69**, construction from memory: the new buffer holds the bytes. -/
theorem C69_construct_copy (s : St) (h : Reach s) (i : Nat) (d : List Byte) (junk : Nat → Byte) :
    (constructCopy s i d junk).contents i = d ∧ Frame s (constructCopy s i d junk) i := by
  have hi := reach_inv h
  have h1 := inv_resize hi i d.length (by omega) junk
  have h2 := (C69_resize s h i d.length (by omega) junk).2.2
  obtain ⟨h3, h4⟩ := put_contents h1 i d (by rw [resize_size])
  exact ⟨h3, fun k hk => (h4 k hk).trans (h2 k hk)⟩

/-- **C69**, adoption: the buffer shows the adopted bytes. -/
theorem C69_adopt (s : St) (h : Reach s) (i : Nat) (d : List Byte) (k : Option Nat) :
    (adopt s i d k).contents i = d ∧ Frame s (adopt s i d k) i := by
  have hi := reach_inv h
  constructor
  · simp [adopt, St.contents, St.bytes, St.setBuf, St.alloc]
  · intro j hj
    have e : (adopt s i d k).bufs j = s.bufs j := by simp [adopt, St.setBuf, St.alloc, Function.update_of_ne hj]
    simp only [St.contents, St.bytes, e]
    cases hp : (s.bufs j).ptr with
    | none => rfl
    | some p =>
      have := (hi.own j p hp).1
      show ((Function.update s.mem s.next d p)).take _ = _
      rw [Function.update_of_ne (by omega)]

/-- **C69**, move: the target gets the source's bytes (the source those of the target), the rest is untouched. -/
theorem C69_move (s : St) (i j : Nat) : (moveAssign s i j).contents i = s.contents j ∧
    (moveAssign s i j).contents j = s.contents i ∧ ∀ k, k ≠ i → k ≠ j → (moveAssign s i j).contents k = s.contents k := by
  rw [moveAssign]
  split
  · rename_i e; subst e; simp
  · rename_i hij
    refine ⟨?_, ?_, ?_⟩
    · simp [St.contents, St.bytes, St.setBuf, Function.update_of_ne hij]
    · simp [St.contents, St.bytes, St.setBuf]
    · intro k h1 h2
      simp [St.contents, St.bytes, St.setBuf, Function.update_of_ne h1, Function.update_of_ne h2]

/-- **C69**, store: only the addressed byte changes. -/
theorem C69_store (s : St) (h : Reach s) (i k : Nat) (v : Byte) (hk : (k : Int) < (s.bufs i).size) :
    (store s i k v).contents i = (s.contents i).set k v ∧ Frame s (store s i k v) i := by
  have hi := reach_inv h
  have hsz := hi.sz i
  rw [store]
  split
  · rename_i p hp
    constructor
    · rw [contents_mem _ _ i p hp, contents_def _ i p hp, Function.update_self, List.take_set]
    · intro j hj
      cases hq : (s.bufs j).ptr with
      | none => simp [St.contents, St.bytes, hq]
      | some q =>
        rw [contents_mem _ _ j q hq, contents_def _ j q hq, Function.update_of_ne]
        rintro rfl
        exact hj (hi.uniq j i q hq hp)
  · rename_i hp
    have := hi.nul i hp
    omega

/-- **C69**, comparison: `==` is equality of the bytes. -/
theorem C69_equal (s : St) (h : Reach s) (i j : Nat) : equal s i j = true ↔ s.contents i = s.contents j := by
  have hi := reach_inv h
  have h1 := contents_length hi i
  have h2 := contents_length hi j
  rw [equal]
  split
  · rename_i hne
    constructor
    · intro e; cases e
    · intro e; rw [e] at h1; exact absurd (h1.symm.trans h2) hne
  · rename_i he
    simp only [ne_eq, not_not] at he
    rw [decide_eq_true_iff, St.contents, St.contents, ← he]

/-! ### Findings and examples -/

/-- **C69** fails for a negative argument: `resize(-1)` is accepted and `size()` is then negative. -/
theorem C69_negative_resize_violated : ((resize init 0 (-1) (fun _ => 0)).bufs 0).size = -1 := by decide

/-- **C70**, finding: after `release()` of an adopted block, the next `reset()` (or the destructor) calls the adopted deleter
with a null pointer. -/
theorem C70_deleter_called_with_null_violated :
    ∃ s, Reach s ∧ (none, some 7) ∈ s.freed := by
  refine ⟨reset (release (adopt init 0 [1, 2] (some 7)) 0) 0, ?_, ?_⟩
  · exact .step (c := .reset 0) (.step (c := .release 0) (.step (c := .adopt 0 [1, 2] (some 7)) .init rfl) trivial) trivial
  · decide

/-- Non-vacuity: a reachable state with a grown copy of an adopted buffer. -/
example : ∃ s, Reach s ∧ s.contents 1 = [1, 2, 9] ∧ s.contents 0 = [1, 2] := by
  refine ⟨store (resize (copyAssign (adopt init 0 [1, 2] (some 7)) 1 0 (fun _ => 0)) 1 3 (fun _ => 5)) 1 2 9, ?_, by decide, by decide⟩
  exact .step (c := .store 1 2 9) (.step (c := .resize 1 3 (fun _ => 5)) (.step (c := .copyAssign 1 0 (fun _ => 0))
    (.step (c := .adopt 0 [1, 2] (some 7)) .init rfl) trivial) (by simp only [Legal]; decide)) (by simp only [Legal]; decide)

end Yacl.Buf
