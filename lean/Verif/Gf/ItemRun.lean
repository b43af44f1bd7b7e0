import Verif.Gf.ItemProps
import Mathlib.Tactic.NormNum
/-! Concrete runs for C124: the hypotheses can be met, and what goes wrong outside of them. -/
namespace Verif.Item

/-- One array: 1, 2, 3, 4. -/
def mem4 : Mem Nat := ⟨fun id k => if id = 0 then [1, 2, 3, 4][k]? else none, 1⟩
/-- Two tasks (even and odd indices), second task first. -/
def sch3 : Sched := ⟨(· % 2), [1, 0, 2]⟩
/-- The plain loop over three elements. -/
def fwd3 : Sched := ⟨fun _ => 0, [0, 1, 2]⟩
/-- The same elements in the opposite order, one task each. -/
def bwd3 : Sched := ⟨id, [2, 1, 0]⟩

/-- Addition, and division that throws for a zero divisor. -/
def addF (a b : Nat) : Option Nat := some (a + b)
def divF (a b : Nat) : Option Nat := if b = 0 then none else some (a / b)

theorem live4 (off len : Nat) (h : off + len ≤ 4) : Live mem4 ⟨0, off, len⟩ := by
  refine ⟨by simp [mem4], fun i hi => ?_⟩
  have hi' : off + i < 4 := by simp only at hi; omega
  refine ⟨[1, 2, 3, 4][off + i], ?_⟩
  unfold At mem4
  simp only [if_true]
  exact List.getElem?_eq_getElem (by simpa using hi')

theorem covers3 : sch3.Covers 3 ∧ fwd3.Covers 3 ∧ bwd3.Covers 3 := by
  refine ⟨?_, ?_, ?_⟩ <;> (unfold Sched.Covers; decide)

/-- The hypotheses of the theorems above are met by overlapping slices of one array, and by disjoint ones. -/
example : Live mem4 ⟨0, 0, 3⟩ ∧ Live mem4 ⟨0, 1, 3⟩ ∧ sch3.Covers 3 ∧ mem4.read ⟨0, 1, 3⟩ = [2, 3, 4] :=
  ⟨live4 0 3 (by norm_num), live4 1 3 (by norm_num), covers3.1, by decide⟩

example : Apart ⟨0, 0, 2⟩ ⟨0, 2, 2⟩ := by
  rintro id k ⟨⟨_, _, h⟩, _, h', _⟩
  simp only at h h'
  omega

/-- Not in place, overlapping slices are fine: 1+2, 2+3, 3+4. -/
example : (match callBinary sch3 addF mem4 (.array 0 0 3 true false) (.array 0 1 3 true true) with
    | .ok (m', .array id off len _ _) => m'.read ⟨id, off, len⟩
    | _ => []) = [3, 5, 7] := by decide

/-- In place on a slice, with the two halves of the array. -/
example : (callBinaryInplace ⟨id, [1, 0]⟩ addF mem4 (.array 0 0 2 true false) (.array 0 2 2 true true)).mem.read ⟨0, 0, 4⟩ =
    [4, 6, 3, 4] := by decide

example : isAll [1, 0, 2] mem4 (.array 0 1 3 true true) 2 = .ok false ∧
    equalItems [2, 0, 1] (· == ·) mem4 (.array 0 0 3 true true) (.array 0 0 3 false false) = .ok true := by decide

example : (match subItem (T := Nat) (.array 0 0 4 false false) 1 9 false with
    | .ok (.array id off len v ro) => (id, off, len, v, ro)
    | _ => (9, 9, 9, true, true)) = (0, 1, 3, true, false) := by decide

example : (match resizeAndSpan 0 mem4 (.array 0 0 4 false false) 6 with
    | .ok (m', _, s) => m'.read s
    | _ => []) = [1, 2, 3, 4, 0, 0] := by decide

/-- **C124 violated** In-place calls on overlapping slices of one array (a slice and the same slice moved by one) do not give
the sums of the elements, and what they give depends on the schedule: running forward the elements of the second operand are
changed before they are used. -/
theorem C124_overlap_violated :
    ∃ (sch sch' : Sched) (m : Mem Nat) (s t : Span), sch.Covers s.len ∧ sch'.Covers s.len ∧ Live m s ∧ Live m t ∧ s.len = t.len ∧
      (callBinaryInplace sch addF m (.array s.id s.off s.len true false) (.array t.id t.off t.len true true)).mem.read s ≠
        (List.zipWith (· + ·) (m.read s) (m.read t)) ∧
      (callBinaryInplace sch' addF m (.array s.id s.off s.len true false) (.array t.id t.off t.len true true)).mem.read s =
        (List.zipWith (· + ·) (m.read s) (m.read t)) :=
  ⟨fwd3, bwd3, mem4, ⟨0, 1, 3⟩, ⟨0, 0, 3⟩, covers3.2.1, covers3.2.2, live4 1 3 (by norm_num), live4 0 3 (by norm_num), rfl,
    by decide, by decide⟩

/-- **C124 violated** An in-place call that throws (a zero divisor at index 1) has already changed other elements: what is left
is neither the old nor the new vector, and how much of it is done depends on the schedule. -/
theorem C124_half_done_violated :
    ∃ (sch sch' : Sched) (m : Mem Nat) (s t : Span), sch.Covers s.len ∧ sch'.Covers s.len ∧ Live m s ∧ Live m t ∧ s.len = t.len ∧
      let r := callBinaryInplace sch divF m (.array s.id s.off s.len false false) (.array t.id t.off t.len false false)
      let r' := callBinaryInplace sch' divF m (.array s.id s.off s.len false false) (.array t.id t.off t.len false false)
      r.res = .throws ∧ r'.res = .throws ∧ m.read s = [6, 8, 9] ∧ r.mem.read s = [3, 8, 9] ∧ r'.mem.read s = [3, 8, 3] := by
  refine ⟨fwd3, bwd3, ⟨fun id k => if id = 0 then [6, 8, 9][k]? else if id = 1 then [2, 0, 3][k]? else none, 2⟩, ⟨0, 0, 3⟩, ⟨1, 0, 3⟩,
    covers3.2.1, covers3.2.2, ⟨by norm_num, fun i hi => ?_⟩, ⟨by norm_num, fun i hi => ?_⟩, rfl, by decide, by decide, by decide,
    by decide, by decide⟩
  · have hi' : i < 3 := hi
    exact ⟨[6, 8, 9][i], by unfold At; simp only [if_true, Nat.zero_add]; exact List.getElem?_eq_getElem _⟩
  · have hi' : i < 3 := hi
    refine ⟨[2, 0, 3][i], ?_⟩
    unfold At
    simp only [if_true, Nat.zero_add, Nat.one_ne_zero, if_false]
    exact List.getElem?_eq_getElem _

/-- **C124 violated** Items of another type are refused by an exception everywhere except as a scalar destination of an in-place
call: there the null pointer that `As<T*>` returns is used. -/
theorem C124_type_violated {T : Type} (sch : Sched) (f : T → Option T) (g : T → T → Option T) (m : Mem T) (b : T) (v ro : Bool) :
    (callUnaryInplace sch f m (.foreign false v ro)).res = .ub ∧
    (callBinaryInplace sch g m (.foreign false v ro) (.scalar b)).res = .ub ∧
    (callUnaryInplace sch f m (.foreign true v ro)).res = .throws ∧
    (callBinaryInplace sch g m (.scalar b) (.foreign false v ro)).res = .throws := ⟨rfl, rfl, rfl, rfl⟩

/-- A single-element vector does not equal the scalar with that element. -/
example : equalItems [0] (· == ·) mem4 (.scalar 1) (.array 0 0 1 true false) = .ok false ∧ mem4.read ⟨0, 0, 1⟩ = [1] := by decide

end Verif.Item
