import Verif.Circuit.Model
import Mathlib.Data.List.Basic
import Mathlib.Data.List.Induction
/-! C29, C30: the executor computes the circuit. -/
namespace Yacl.Circuit

/-! ### Specification -/

/-- Wires a gate reads (the operand of `EQ` is a constant). -/
def Gate.reads (g : Gate) : List Nat := if g.op = .eq then [] else g.iw

/-- Arity of each supported operation. -/
def Gate.Arity (g : Gate) : Prop :=
  match g.op with
  | .xor | .and => g.iw.length = 2 ∧ g.ow.length = 1
  | .inv | .eq | .eqw => g.iw.length = 1 ∧ g.ow.length = 1
  | .mand => False

/-- Number of input / output wires. -/
def Circ.nIn (c : Circ) : Nat := c.niw.sum
def Circ.nOut (c : Circ) : Nat := c.now.sum

/-- A wire is available after the gates `pre`. -/
def Circ.Avail (c : Circ) (pre : List Gate) (w : Nat) : Prop := w < c.nIn ∨ ∃ g ∈ pre, w ∈ g.ow

/-- A well-formed circuit: wires fit, gates read only input wires and outputs of earlier gates, write a non-input wire that
no earlier gate wrote, and the last `nOut` wires (the outputs) all get a value. -/
structure Circ.WF (c : Circ) : Prop where
  ins : c.nIn ≤ c.nw
  outs : c.nOut ≤ c.nw
  arity : ∀ g ∈ c.gates, g.Arity
  range : ∀ g ∈ c.gates, ∀ w ∈ g.ow, c.nIn ≤ w ∧ w < c.nw
  reads : ∀ pre g post, c.gates = pre ++ g :: post → ∀ w ∈ g.reads, c.Avail pre w
  fresh : ∀ pre g post, c.gates = pre ++ g :: post → ∀ w ∈ g.ow, ∀ g' ∈ pre, w ∉ g'.ow
  outsSet : ∀ w, c.nw - c.nOut ≤ w → w < c.nw → c.Avail c.gates w

/-- The value of a wire under the boolean meaning of the gates. -/
inductive WireVal (c : Circ) (inp : Nat → Bool) : Nat → Bool → Prop
  | input {w} : w < c.nIn → WireVal c inp w (inp w)
  | xor {a b o x y} : ⟨[a, b], [o], .xor⟩ ∈ c.gates → WireVal c inp a x → WireVal c inp b y → WireVal c inp o (x ^^ y)
  | and {a b o x y} : ⟨[a, b], [o], .and⟩ ∈ c.gates → WireVal c inp a x → WireVal c inp b y → WireVal c inp o (x && y)
  | inv {a o x} : ⟨[a], [o], .inv⟩ ∈ c.gates → WireVal c inp a x → WireVal c inp o (!x)
  | const {k o} : ⟨[k], [o], .eq⟩ ∈ c.gates → WireVal c inp o (decide (k ≠ 0))
  | copy {a o x} : ⟨[a], [o], .eqw⟩ ∈ c.gates → WireVal c inp a x → WireVal c inp o x

/-! ### Exec -/

@[simp] theorem bind_ok {α β : Type} (a : α) (f : α → Res β) : (Res.ok a >>= f) = f a := rfl
@[simp] theorem pure_ok {α : Type} (a : α) : (pure a : Res α) = .ok a := rfl
@[simp] theorem bind_throw {α β : Type} (f : α → Res β) : (Res.throw >>= f) = .throw := rfl
@[simp] theorem bind_ub {α β : Type} (f : α → Res β) : (Res.ub >>= f) = .ub := rfl

theorem getW_some {ws : List Bool} {i : Nat} {b : Bool} (h : ws[i]? = some b) : getW ws i = .ok b := by simp [getW, h]
theorem setW_lt {ws : List Bool} {i : Nat} {b : Bool} (h : i < ws.length) : setW ws i b = .ok (ws.set i b) := by simp [setW, h]

/-- A gate's equation on the wires. -/
def GateEq (ws : List Bool) (g : Gate) : Prop :=
  match g with
  | ⟨[a, b], [o], .xor⟩ => ∃ x y, ws[a]? = some x ∧ ws[b]? = some y ∧ ws[o]? = some (x ^^ y)
  | ⟨[a, b], [o], .and⟩ => ∃ x y, ws[a]? = some x ∧ ws[b]? = some y ∧ ws[o]? = some (x && y)
  | ⟨[a], [o], .inv⟩ => ∃ x, ws[a]? = some x ∧ ws[o]? = some (!x)
  | ⟨[k], [o], .eq⟩ => ws[o]? = some (decide (k ≠ 0))
  | ⟨[a], [o], .eqw⟩ => ∃ x, ws[a]? = some x ∧ ws[o]? = some x
  | _ => False

/-- A gate of right arity, case by case. -/
theorem arity_cases {g : Gate} (h : g.Arity) :
    (∃ a b o, g = ⟨[a, b], [o], .xor⟩) ∨ (∃ a b o, g = ⟨[a, b], [o], .and⟩) ∨ (∃ a o, g = ⟨[a], [o], .inv⟩) ∨
    (∃ a o, g = ⟨[a], [o], .eq⟩) ∨ (∃ a o, g = ⟨[a], [o], .eqw⟩) := by
  rcases g with ⟨iw, ow, op⟩
  cases op <;> simp only [Gate.Arity] at h
  · obtain ⟨h1, h2⟩ := h
    obtain ⟨a, b, rfl⟩ := List.length_eq_two.mp h1
    obtain ⟨o, rfl⟩ := List.length_eq_one_iff.mp h2
    exact Or.inl ⟨a, b, o, rfl⟩
  · obtain ⟨h1, h2⟩ := h
    obtain ⟨a, b, rfl⟩ := List.length_eq_two.mp h1
    obtain ⟨o, rfl⟩ := List.length_eq_one_iff.mp h2
    exact Or.inr (Or.inl ⟨a, b, o, rfl⟩)
  all_goals
    obtain ⟨h1, h2⟩ := h
    obtain ⟨a, rfl⟩ := List.length_eq_one_iff.mp h1
    obtain ⟨o, rfl⟩ := List.length_eq_one_iff.mp h2
    simp

theorem exec_gate {ws : List Bool} {g : Gate} (ha : g.Arity) (hr : ∀ w ∈ g.reads, w < ws.length)
    (hw : ∀ w ∈ g.ow, w < ws.length) (hd : ∀ w ∈ g.reads, w ∉ g.ow) :
    ∃ o b, g.ow = [o] ∧ execGate ws g = .ok (ws.set o b) ∧ GateEq (ws.set o b) g := by
  rcases arity_cases ha with ⟨a, b, o, rfl⟩ | ⟨a, b, o, rfl⟩ | ⟨a, o, rfl⟩ | ⟨a, o, rfl⟩ | ⟨a, o, rfl⟩ <;>
    simp [Gate.reads] at hr hw hd
  · obtain ⟨x, hx⟩ : ∃ x, ws[a]? = some x := ⟨_, List.getElem?_eq_getElem hr.1⟩
    obtain ⟨y, hy⟩ : ∃ x, ws[b]? = some x := ⟨_, List.getElem?_eq_getElem hr.2⟩
    refine ⟨o, x ^^ y, rfl, ?_, ?_⟩
    · simp [execGate, idx, getW_some hx, getW_some hy, setW_lt hw, xorGate]
    · simp only [GateEq]
      refine ⟨x, y, ?_, ?_, by simp [hw]⟩
      · rw [List.getElem?_set_ne (fun e => hd.1 e.symm)]; exact hx
      · rw [List.getElem?_set_ne (fun e => hd.2 e.symm)]; exact hy
  · obtain ⟨x, hx⟩ : ∃ x, ws[a]? = some x := ⟨_, List.getElem?_eq_getElem hr.1⟩
    obtain ⟨y, hy⟩ : ∃ x, ws[b]? = some x := ⟨_, List.getElem?_eq_getElem hr.2⟩
    refine ⟨o, x && y, rfl, ?_, ?_⟩
    · simp [execGate, idx, getW_some hx, getW_some hy, setW_lt hw, andGate]
    · simp only [GateEq]
      refine ⟨x, y, ?_, ?_, by simp [hw]⟩
      · rw [List.getElem?_set_ne (fun e => hd.1 e.symm)]; exact hx
      · rw [List.getElem?_set_ne (fun e => hd.2 e.symm)]; exact hy
  · obtain ⟨x, hx⟩ : ∃ x, ws[a]? = some x := ⟨_, List.getElem?_eq_getElem hr⟩
    refine ⟨o, !x, rfl, ?_, ?_⟩
    · simp [execGate, idx, getW_some hx, setW_lt hw, invGate]
    · simp only [GateEq]
      refine ⟨x, ?_, by simp [hw]⟩
      rw [List.getElem?_set_ne (fun e => hd e.symm)]; exact hx
  · refine ⟨o, decide (a ≠ 0), rfl, ?_, ?_⟩
    · simp [execGate, idx, setW_lt hw]
      cases a <;> rfl
    · simp [GateEq, hw]
  · obtain ⟨x, hx⟩ : ∃ x, ws[a]? = some x := ⟨_, List.getElem?_eq_getElem hr⟩
    refine ⟨o, x, rfl, ?_, ?_⟩
    · simp [execGate, idx, getW_some hx, setW_lt hw]
    · simp only [GateEq]
      refine ⟨x, ?_, by simp [hw]⟩
      rw [List.getElem?_set_ne (fun e => hd e.symm)]; exact hx

/-- An equation survives a write to a wire the gate does not touch. -/
theorem GateEq.set {ws : List Bool} {g : Gate} {o : Nat} {b : Bool} (h : GateEq ws g) (ha : g.Arity)
    (h1 : o ∉ g.reads) (h2 : o ∉ g.ow) : GateEq (ws.set o b) g := by
  rcases arity_cases ha with ⟨p, q, r, rfl⟩ | ⟨p, q, r, rfl⟩ | ⟨p, r, rfl⟩ | ⟨p, r, rfl⟩ | ⟨p, r, rfl⟩ <;>
    simp [Gate.reads] at h1 h2
  all_goals
    simp only [GateEq] at h ⊢
    first
      | (obtain ⟨x, y, hx, hy, hz⟩ := h
         exact ⟨x, y, by rw [List.getElem?_set_ne h1.1]; exact hx, by rw [List.getElem?_set_ne h1.2]; exact hy,
           by rw [List.getElem?_set_ne h2]; exact hz⟩)
      | (obtain ⟨x, hx, hz⟩ := h
         exact ⟨x, by rw [List.getElem?_set_ne h1]; exact hx, by rw [List.getElem?_set_ne h2]; exact hz⟩)
      | (rw [List.getElem?_set_ne h2]; exact h)

/-- After the gates `pre`. -/
structure Done (c : Circ) (inp : Nat → Bool) (pre : List Gate) (ws : List Bool) : Prop where
  len : ws.length = c.nw
  ins : ∀ w, w < c.nIn → ws[w]? = some (inp w)
  eqs : ∀ g ∈ pre, GateEq ws g

theorem exec_gates {c : Circ} {inp : Nat → Bool} (hc : c.WF) : ∀ (post pre : List Gate) (ws : List Bool),
    c.gates = pre ++ post → Done c inp pre ws → ∃ ws', execGates post ws = .ok ws' ∧ Done c inp c.gates ws' := by
  intro post
  induction post with
  | nil =>
    intro pre ws he hd
    refine ⟨ws, rfl, ?_⟩
    rw [he, List.append_nil]; exact hd
  | cons g post ih =>
    intro pre ws he hd
    have hmem : g ∈ c.gates := by rw [he]; simp
    have hread := hc.reads pre g post he
    have hfresh := hc.fresh pre g post he
    have havail : ∀ w, c.Avail pre w → w ∉ g.ow := by
      rintro w (hw | ⟨g', hg', hw⟩) hm
      · exact absurd (hc.range g hmem w hm).1 (by omega)
      · exact hfresh w hm g' hg' hw
    obtain ⟨o, b, ho, hx, hq⟩ := exec_gate (ws := ws) (hc.arity g hmem)
      (by
        intro w hw
        rw [hd.len]
        rcases hread w hw with h | ⟨g', hg', h⟩
        · exact Nat.lt_of_lt_of_le h hc.ins
        · exact (hc.range g' (by rw [he]; simp [hg']) w h).2)
      (by intro w hw; rw [hd.len]; exact (hc.range g hmem w hw).2)
      (by intro w hw; exact havail w (hread w hw))
    have hom : o ∈ g.ow := by rw [ho]; simp
    have hdone : Done c inp (pre ++ [g]) (ws.set o b) := by
      refine ⟨by simpa using hd.len, ?_, ?_⟩
      · intro w hw
        rw [List.getElem?_set_ne (by have := (hc.range g hmem o hom).1; omega)]
        exact hd.ins w hw
      · intro g' hg'
        rcases List.mem_append.mp hg' with h | h
        · refine (hd.eqs g' h).set (hc.arity g' (by rw [he]; simp [h])) ?_ (hfresh o hom g' h)
          obtain ⟨p1, p2, rfl⟩ := List.append_of_mem h
          intro hor
          exact havail o ((hc.reads p1 g' (p2 ++ g :: post) (by rw [he]; simp) o hor).elim Or.inl
            (fun ⟨k, hk, hk2⟩ => Or.inr ⟨k, by simp [hk], hk2⟩)) hom
        · simp only [List.mem_singleton] at h
          subst h; exact hq
    obtain ⟨ws', h1, h2⟩ := ih (pre ++ [g]) (ws.set o b) (by rw [he]; simp) hdone
    refine ⟨ws', ?_, h2⟩
    simp only [execGates, hx, bind_ok]
    exact h1

/-- Final wires satisfying every equation hold exactly the wire values. -/
theorem wireVal_unique {c : Circ} {inp : Nat → Bool} {ws : List Bool} (hd : Done c inp c.gates ws) {w : Nat} {b : Bool}
    (h : WireVal c inp w b) : ws[w]? = some b := by
  induction h with
  | input hw => exact hd.ins _ hw
  | xor hg _ _ ih1 ih2 =>
    obtain ⟨x, y, hx, hy, hz⟩ := hd.eqs _ hg
    rw [ih1] at hx; rw [ih2] at hy; cases hx; cases hy; exact hz
  | and hg _ _ ih1 ih2 =>
    obtain ⟨x, y, hx, hy, hz⟩ := hd.eqs _ hg
    rw [ih1] at hx; rw [ih2] at hy; cases hx; cases hy; exact hz
  | inv hg _ ih =>
    obtain ⟨x, hx, hz⟩ := hd.eqs _ hg
    rw [ih] at hx; cases hx; exact hz
  | const hg => exact hd.eqs _ hg
  | copy hg _ ih =>
    obtain ⟨x, hx, hz⟩ := hd.eqs _ hg
    rw [ih] at hx; cases hx; exact hz

/-- Every available wire has a value. -/
theorem wireVal_total {c : Circ} (inp : Nat → Bool) (hc : c.WF) : ∀ (pre post : List Gate), c.gates = pre ++ post →
    ∀ w, c.Avail pre w → ∃ b, WireVal c inp w b := by
  intro pre
  induction pre using List.reverseRecOn with
  | nil =>
    rintro post - w (h | ⟨g, hg, _⟩)
    · exact ⟨_, .input h⟩
    · cases hg
  | append_singleton pre g ih =>
    intro post he w hw
    have he' : c.gates = pre ++ g :: post := by rw [he]; simp
    have ih' := ih (g :: post) he'
    have hmem : g ∈ c.gates := by rw [he']; simp
    rcases hw with h | ⟨g', hg', hw⟩
    · exact ih' w (Or.inl h)
    · rcases List.mem_append.mp hg' with h | h
      · exact ih' w (Or.inr ⟨g', h, hw⟩)
      · simp only [List.mem_singleton] at h
        subst h
        have hread := hc.reads pre g' post he'
        rcases arity_cases (hc.arity g' hmem) with ⟨a, b, o, rfl⟩ | ⟨a, b, o, rfl⟩ | ⟨a, o, rfl⟩ | ⟨a, o, rfl⟩ | ⟨a, o, rfl⟩ <;>
          simp [Gate.reads] at hread hw <;> subst hw
        · obtain ⟨x, hx⟩ := ih' a hread.1
          obtain ⟨y, hy⟩ := ih' b hread.2
          exact ⟨_, .xor hmem hx hy⟩
        · obtain ⟨x, hx⟩ := ih' a hread.1
          obtain ⟨y, hy⟩ := ih' b hread.2
          exact ⟨_, .and hmem hx hy⟩
        · obtain ⟨x, hx⟩ := ih' a hread
          exact ⟨_, .inv hmem hx⟩
        · exact ⟨_, .const hmem⟩
        · obtain ⟨x, hx⟩ := ih' a hread
          exact ⟨_, .copy hmem hx⟩

/-- **C29**, execution: from wires that hold the inputs, `Exec` ends normally and leaves on every wire that has a value
exactly its value; every input wire and gate output has one. -/
theorem C29_exec (c : Circ) (hc : c.WF) (inp : Nat → Bool) (ws : List Bool) (hl : ws.length = c.nw)
    (hi : ∀ w, w < c.nIn → ws[w]? = some (inp w)) :
    ∃ ws', exec c ws = .ok ws' ∧ ws'.length = c.nw ∧ (∀ w b, WireVal c inp w b → ws'[w]? = some b) ∧
      ∀ w, c.Avail c.gates w → ∃ b, WireVal c inp w b := by
  obtain ⟨ws', h1, h2⟩ := exec_gates (inp := inp) hc c.gates [] ws rfl ⟨hl, hi, by simp⟩
  exact ⟨ws', h1, h2.len, fun w b h => wireVal_unique h2 h, wireVal_total inp hc c.gates [] (by simp)⟩

/-- The order of execution matters only through the equations: a wire has at most one value. -/
theorem C29_value_unique (c : Circ) (hc : c.WF) (inp : Nat → Bool) (w : Nat) (b b' : Bool)
    (h : WireVal c inp w b) (h' : WireVal c inp w b') : b = b' := by
  obtain ⟨ws', _, _, h3, _⟩ := C29_exec c hc inp ((List.range c.nw).map inp) (by simp) (by
    intro w hw
    have : w < c.nw := Nat.lt_of_lt_of_le hw hc.ins
    simp [this])
  have e := (h3 w b h).symm.trans (h3 w b' h')
  exact Option.some.inj e

/-- A multiple-AND gate is refused with an exception. -/
theorem C29_mand_refused (c : Circ) (g : Gate) (post : List Gate) (ws : List Bool) (h : c.gates = g :: post)
    (hg : g.op = .mand) : exec c ws = .throw := by
  simp [exec, h, execGates, execGate, hg]

/-! ### Setup and Finalize -/

theorem bitsOf_length (w : Nat) (x : BitVec w) : (bitsOf w x).length = w := by simp [bitsOf]

theorem bitsOf_get {w : Nat} (x : BitVec w) {j : Nat} (h : j < w) : (bitsOf w x)[j]? = some (x.getLsbD j) := by
  simp [bitsOf, h]

theorem flat_length {w : Nat} (xs : List (BitVec w)) : (xs.flatMap (bitsOf w)).length = xs.length * w := by
  induction xs with
  | nil => simp
  | cons x xs ih => simp [List.flatMap_cons, bitsOf_length, ih, Nat.add_mul, Nat.add_comm]

theorem flat_get {w : Nat} : ∀ (xs : List (BitVec w)) (i j : Nat), j < w →
    (xs.flatMap (bitsOf w))[i * w + j]? = xs[i]?.map (·.getLsbD j) := by
  intro xs
  induction xs with
  | nil => intro i j _; simp
  | cons x xs ih =>
    intro i j hj
    rw [List.flatMap_cons]
    cases i with
    | zero =>
      rw [List.getElem?_append_left (by simp [bitsOf_length]; exact hj)]
      simp [bitsOf_get x hj]
    | succ i =>
      rw [List.getElem?_append_right (by rw [bitsOf_length, Nat.add_mul]; omega)]
      have : (i + 1) * w + j - (bitsOf w x).length = i * w + j := by rw [bitsOf_length, Nat.add_mul]; omega
      rw [this, ih i j hj]
      simp

theorem bitsNat_testBit : ∀ (bs : List Bool) (j : Nat), (bitsNat bs).testBit j = bs.getD j false := by
  intro bs
  induction bs with
  | nil => intro j; simp [bitsNat]
  | cons b bs ih =>
    intro j
    cases j with
    | zero =>
      simp only [bitsNat, Nat.testBit_zero, List.getD_cons_zero]
      cases b <;> simp <;> omega
    | succ j =>
      rw [Nat.testBit_succ, List.getD_cons_succ, ← ih j]
      congr 1
      cases b <;> simp [bitsNat] <;> omega

theorem ofBits_get (w : Nat) (bs : List Bool) (j : Nat) (h : j < w) : (ofBits w bs).getLsbD j = bs.getD j false := by
  rw [ofBits, BitVec.getLsbD_ofNat, bitsNat_testBit]; simp [h]

theorem resize_length (ws : List Bool) (n : Nat) : (resize ws n).length = n := by simp [resize]; omega

/-- The loop takes blocks from the end of the wires. -/
theorem span_loop (w : Nat) (ws : List Bool) : ∀ (bl : List (List Bool)) (index : Nat) (pre : List Bool)
    (out : List (BitVec w)), index ≤ ws.length → ws.take index = pre ++ bl.reverse.flatten → (∀ b ∈ bl, b ≠ []) →
    finalizeSpanLoop w ws (bl.map List.length) index out = .ok (bl.reverse.map (ofBits w) ++ out) := by
  intro bl
  induction bl with
  | nil => intro index pre out _ _ _; simp [finalizeSpanLoop]
  | cons b bl ih =>
    intro index pre out hi he hne
    have hl : index = (pre ++ bl.reverse.flatten).length + b.length := by
      have := congrArg List.length he
      simp [List.length_take, List.flatten_append] at this
      simp [List.length_append]; omega
    have hb : b.length ≠ 0 := by simpa using hne b (by simp)
    have he2 : ws.take index = (pre ++ bl.reverse.flatten) ++ b := by simp [he, List.flatten_append]
    have hws : ws = (pre ++ bl.reverse.flatten) ++ b ++ ws.drop index := by
      conv => lhs; rw [← List.take_append_drop index ws, he2]
    have hwb : wiresBelow ws b.length index = .ok b := by
      have e1 : index - b.length = (pre ++ bl.reverse.flatten).length := by omega
      rw [wiresBelow, if_pos ⟨by omega, hi⟩, e1]
      congr 1
      generalize ws.drop index = tl at hws
      subst hws
      simp [List.append_assoc]
    simp only [List.map_cons, finalizeSpanLoop, hwb, bind_ok, hb, if_false]
    rw [ih (index - b.length) pre (ofBits w b :: out) (by omega) (by
      have e1 : index - b.length = (pre ++ bl.reverse.flatten).length := by omega
      rw [e1, hws, List.append_assoc, List.take_left]) (fun b hb => hne b (by simp [hb]))]
    simp

/-- `Finalize()` is the loop of `Finalize(Span)` with all widths 8. -/
theorem finalizeLoop_eq (ws : List Bool) : ∀ (n index : Nat) (out : List (BitVec 8)),
    finalizeLoop ws n index out = finalizeSpanLoop 8 ws (List.replicate n 8) index out := by
  intro n
  induction n with
  | zero => intro index out; rfl
  | succ n ih =>
    intro index out
    simp only [finalizeLoop, List.replicate_succ, finalizeSpanLoop]
    congr 1; funext bs
    rw [ih]; simp

/-- Cut a list into blocks of the given lengths. -/
def cut : List Nat → List Bool → List (List Bool)
  | [], _ => []
  | n :: ns, l => l.take n :: cut ns (l.drop n)

theorem cut_flatten : ∀ (ns : List Nat) (l : List Bool), l.length = ns.sum → (cut ns l).flatten = l ∧
    (cut ns l).map List.length = ns := by
  intro ns
  induction ns with
  | nil => intro l h; simp at h; simp [cut, h]
  | cons n ns ih =>
    intro l h
    simp at h
    obtain ⟨h1, h2⟩ := ih (l.drop n) (by simp; omega)
    simp [cut, h1, h2]; omega

theorem cut_get : ∀ (ns : List Nat) (l : List Bool) (i j n : Nat), ns[i]? = some n → j < n →
    ((cut ns l).getD i []).getD j false = l.getD ((ns.take i).sum + j) false := by
  intro ns
  induction ns with
  | nil => intro l i j n h; simp at h
  | cons m ns ih =>
    intro l i j n h hj
    cases i with
    | zero =>
      simp at h; subst h
      rw [cut, List.getD_cons_zero, List.getD_eq_getElem?_getD, List.getElem?_take_of_lt hj]
      simp [List.getD_eq_getElem?_getD]
    | succ i =>
      simp only [List.getElem?_cons_succ] at h
      rw [cut, List.getD_cons_succ, ih _ i j n h hj, List.take_succ_cons, List.sum_cons,
        List.getD_eq_getElem?_getD, List.getElem?_drop, List.getD_eq_getElem?_getD, Nat.add_assoc]

/-- Span `Finalize` on a `now` that reads the same backwards (e.g. all outputs of one width). -/
theorem span_result (w : Nat) (now : List Nat) (ws : List Bool) (hp : now.reverse = now) (h0 : ∀ n ∈ now, 0 < n)
    (hs : now.sum ≤ ws.length) :
    finalizeSpanLoop w ws now ws.length [] = .ok ((cut now (ws.drop (ws.length - now.sum))).map (ofBits w)) := by
  obtain ⟨h1, h2⟩ := cut_flatten now (ws.drop (ws.length - now.sum)) (by simp; omega)
  have h3 : (cut now (ws.drop (ws.length - now.sum))).reverse.map List.length = now := by
    rw [List.map_reverse, h2, hp]
  have key := span_loop w ws (cut now (ws.drop (ws.length - now.sum))).reverse ws.length
    (ws.take (ws.length - now.sum)) [] (Nat.le_refl _) (by
      rw [List.reverse_reverse, h1, List.take_append_drop, List.take_length]) (by
      intro b hb hbe
      subst hbe
      have : (0 : Nat) ∈ (cut now (ws.drop (ws.length - now.sum))).reverse.map List.length :=
        List.mem_map.mpr ⟨[], hb, rfl⟩
      rw [h3] at this
      exact absurd (h0 0 this) (by omega))
  rw [h3] at key
  rw [key]; simp

theorem cut_length (ns : List Nat) (l : List Bool) : (cut ns l).length = ns.length := by
  induction ns generalizing l with
  | nil => rfl
  | cons n ns ih => simp [cut, ih]

/-! ### End to end -/

/-- One use of an executor whose wires are `ws0` (a new executor: `[]`): `SetupInputs(bytes)`, `Exec()`, `Finalize()`. -/
def useBytes (c : Circ) (ws0 : List Bool) (bytes : List (BitVec 8)) : Res (List (BitVec 8) × List Bool) := do
  let ws ← setupBytes c ws0 bytes
  let ws ← exec c ws
  let out ← finalizeBytes c ws
  return (out, ws)

/-- One use through spans: `SetupInputs<T>(inputs)`, `Exec()`, `Finalize<T>(outputs)`. -/
def useSpan (w : Nat) (c : Circ) (ws0 : List Bool) (ins : List (BitVec w)) : Res (List (BitVec w) × List Bool) := do
  let ws ← setupSpan c ws0 ins
  let ws ← exec c ws
  let out ← finalizeSpan w c ws
  return (out, ws)

theorem setupBytes_ok {c : Circ} (hc : c.WF) (ws0 : List Bool) (bytes : List (BitVec 8)) (h32 : c.nIn < 2 ^ 32)
    (hn : bytes.length * 8 = c.nIn) : ∃ ws, setupBytes c ws0 bytes = .ok ws ∧ ws.length = c.nw ∧
      ∀ w, w < c.nIn → ws[w]? = some ((bytes.getD (w / 8) 0).getLsbD (w % 8)) := by
  have hle : bytes.length * 8 ≤ (resize ws0 c.nw).length := by rw [resize_length, hn]; exact hc.ins
  refine ⟨bytes.flatMap (bitsOf 8) ++ (resize ws0 c.nw).drop (bytes.length * 8), ?_, ?_, ?_⟩
  · have e : c.niw.sum % 2 ^ 32 = bytes.length * 8 := by
      rw [hn]; exact Nat.mod_eq_of_lt h32
    simp [setupBytes, e, hle]
  · rw [resize_length] at hle
    simp only [List.length_append, flat_length, List.length_drop, resize_length]; omega
  · intro w hw
    have hb : w / 8 < bytes.length := by omega
    rw [List.getElem?_append_left (by rw [flat_length]; omega)]
    have e : w = w / 8 * 8 + w % 8 := by omega
    conv => lhs; rw [e]
    rw [flat_get _ _ _ (by omega)]
    simp [hb, List.getD_eq_getElem?_getD]

/-- **C29 / C30**, bytes: for a well-formed circuit whose outputs fill whole bytes, and an executor in any earlier state
`ws0`, the result bytes hold the values of the output wires under the new inputs: output bit `p` is bit `p % 8` of the byte
that is `p / 8`-th from the end. What is missing: output widths that do not fill whole bytes (`C29_bytes_violated`). -/
theorem C29_bytes_partial (c : Circ) (hc : c.WF) (ws0 : List Bool) (bytes : List (BitVec 8)) (h32 : c.nIn < 2 ^ 32)
    (hn : bytes.length * 8 = c.nIn) (h8 : c.nOut % 8 = 0) :
    ∃ out ws, useBytes c ws0 bytes = .ok (out, ws) ∧ out.length * 8 = c.nOut ∧
      ∀ p, p < c.nOut → WireVal c (fun w => (bytes.getD (w / 8) 0).getLsbD (w % 8)) (c.nw - c.nOut + p)
        ((out.getD (out.length - 1 - p / 8) 0).getLsbD (p % 8)) := by
  obtain ⟨ws, hs, hl, hi⟩ := setupBytes_ok hc ws0 bytes h32 hn
  obtain ⟨ws', he, hl', hv, ht⟩ := C29_exec c hc _ ws hl hi
  obtain ⟨q, hq⟩ : ∃ q, c.nOut = q * 8 := ⟨c.nOut / 8, by omega⟩
  have hsum : (List.replicate q 8).sum = q * 8 := by simp
  have hle : q * 8 ≤ ws'.length := by rw [hl', ← hq]; exact hc.outs
  have hfin : finalizeBytes c ws' =
      .ok ((cut (List.replicate q 8) (ws'.drop (ws'.length - q * 8))).map (ofBits 8)).reverse := by
    have e : (c.now.sum + 7) / 8 = q := by
      have : c.now.sum = q * 8 := hq
      omega
    rw [finalizeBytes, e, finalizeLoop_eq]
    have := span_result 8 (List.replicate q 8) ws' (by simp) (by simp) (by rw [hsum]; exact hle)
    rw [hsum] at this
    rw [this]; rfl
  refine ⟨_, ws', by simp [useBytes, hs, he, hfin]; rfl, by simp [cut_length]; omega, ?_⟩
  intro p hp
  have hpq : p / 8 < q := by omega
  have hw : c.nw - c.nOut + p < c.nw := by have := hc.outs; omega
  obtain ⟨b, hb⟩ := ht (c.nw - c.nOut + p) (hc.outsSet _ (by omega) hw)
  have hval := hv _ b hb
  have key : ((((cut (List.replicate q 8) (ws'.drop (ws'.length - q * 8))).map (ofBits 8)).reverse.getD
      (((cut (List.replicate q 8) (ws'.drop (ws'.length - q * 8))).map (ofBits 8)).reverse.length - 1 - p / 8) 0).getLsbD
      (p % 8)) = b := by
    have hlen : (cut (List.replicate q 8) (ws'.drop (ws'.length - q * 8))).length = q := by simp [cut_length]
    have hg := cut_get (List.replicate q 8) (ws'.drop (ws'.length - q * 8)) (p / 8) (p % 8) 8
      (by simp [hpq]) (by omega)
    rw [List.getD_eq_getElem?_getD, List.getElem?_reverse (by simp [hlen]; omega)]
    have e2 : ((cut (List.replicate q 8) (ws'.drop (ws'.length - q * 8))).map (ofBits 8)).length - 1 -
        (((cut (List.replicate q 8) (ws'.drop (ws'.length - q * 8))).map (ofBits 8)).reverse.length - 1 - p / 8) = p / 8 := by
      simp [hlen]; omega
    rw [e2, List.getElem?_map]
    have hlt : p / 8 < (cut (List.replicate q 8) (ws'.drop (ws'.length - q * 8))).length := by rw [hlen]; exact hpq
    rw [List.getElem?_eq_getElem hlt]
    simp only [Option.map_some, Option.getD_some]
    rw [ofBits_get _ _ _ (by omega)]
    rw [List.getD_eq_getElem?_getD (l := cut _ _), List.getElem?_eq_getElem hlt, Option.getD_some] at hg
    rw [hg, List.getD_eq_getElem?_getD, List.getElem?_drop]
    have e3 : ws'.length - q * 8 + ((List.take (p / 8) (List.replicate q 8)).sum + p % 8) = c.nw - c.nOut + p := by
      rw [List.take_replicate, hl', hq]
      simp only [List.sum_replicate_nat]
      have : min (p / 8) q = p / 8 := by omega
      rw [this]; omega
    rw [e3, hval]; rfl
  rw [key]; exact hb

/-- **C30**, bytes: the result of a use does not depend on what the executor did before. -/
theorem C30_bytes_reuse_partial (c : Circ) (hc : c.WF) (ws0 : List Bool) (bytes : List (BitVec 8)) (h32 : c.nIn < 2 ^ 32)
    (hn : bytes.length * 8 = c.nIn) (h8 : c.nOut % 8 = 0) :
    ∃ out ws ws', useBytes c ws0 bytes = .ok (out, ws) ∧ useBytes c [] bytes = .ok (out, ws') := by
  obtain ⟨o1, w1, h1, l1, v1⟩ := C29_bytes_partial c hc ws0 bytes h32 hn h8
  obtain ⟨o2, w2, h2, l2, v2⟩ := C29_bytes_partial c hc [] bytes h32 hn h8
  have hl : o1.length = o2.length := by omega
  have : o1 = o2 := by
    apply List.ext_getElem hl
    intro i hi1 hi2
    apply BitVec.eq_of_getLsbD_eq
    intro j hj
    have hp : (o1.length - 1 - i) * 8 + j < c.nOut := by omega
    have a := C29_value_unique c hc _ _ _ _ (v1 _ hp) (v2 _ hp)
    have e1 : o1.length - 1 - ((o1.length - 1 - i) * 8 + j) / 8 = i := by omega
    have e2 : o2.length - 1 - ((o1.length - 1 - i) * 8 + j) / 8 = i := by omega
    have e3 : ((o1.length - 1 - i) * 8 + j) % 8 = j := by omega
    rw [e1, e2, e3] at a
    simpa [List.getD_eq_getElem?_getD, hi1, hi2] using a
  subst this
  exact ⟨o1, w1, w2, h1, h2⟩

/-- **C29**, spans: on a new executor, for inputs of full width and output widths that read the same backwards (in
particular all equal), output `i` holds the values of its wires and zeros above. What is missing: other width lists
(`C29_span_violated`) and inputs narrower than the element type. -/
theorem C29_span_partial (w : Nat) (c : Circ) (hc : c.WF) (ins : List (BitVec w)) (hn : ins.length = c.niw.length)
    (hw : ∀ n ∈ c.niw, n = w) (hp : c.now.reverse = c.now) (hb : ∀ n ∈ c.now, 0 < n ∧ n ≤ w) :
    ∃ out ws, useSpan w c [] ins = .ok (out, ws) ∧ out.length = c.now.length ∧
      ∀ (i j n : Nat), c.now[i]? = some n → j < w →
        if j < n then
          WireVal c (fun k => (ins.getD (k / w) 0).getLsbD (k % w)) (c.nw - c.nOut + ((c.now.take i).sum + j))
            ((out.getD i 0).getLsbD j)
        else (out.getD i 0).getLsbD j = false := by
  have hin : c.nIn = ins.length * w := by
    rw [Circ.nIn, hn, List.eq_replicate_of_mem hw]; simp
  have hs : setupSpan c [] ins = .ok (resize (ins.flatMap (bitsOf w)) c.nw) := by simp [setupSpan, hn]
  have hi : ∀ k, k < c.nIn → (resize (ins.flatMap (bitsOf w)) c.nw)[k]? = some ((ins.getD (k / w) 0).getLsbD (k % w)) := by
    intro k hk
    have hw0 : 0 < w := by
      rcases Nat.eq_zero_or_pos w with h | h
      · subst h; simp at hin; omega
      · exact h
    have hkq : k / w < ins.length := Nat.div_lt_of_lt_mul (by rw [Nat.mul_comm]; omega)
    have hins := hc.ins
    rw [resize, List.getElem?_append_left (by rw [List.length_take, flat_length]; omega), List.getElem?_take_of_lt (by omega)]
    have e : k = k / w * w + k % w := by have := Nat.div_add_mod k w; rw [Nat.mul_comm] at this; omega
    conv => lhs; rw [e]
    rw [flat_get _ _ _ (Nat.mod_lt _ hw0)]
    simp [hkq, List.getD_eq_getElem?_getD]
  obtain ⟨ws', he, hl', hv, ht⟩ := C29_exec c hc _ _ (resize_length _ _) hi
  have hfin : finalizeSpan w c ws' = .ok ((cut c.now (ws'.drop (ws'.length - c.now.sum))).map (ofBits w)) := by
    rw [finalizeSpan, if_pos (by simp; exact fun n h => (hb n h).2)]
    exact span_result w c.now ws' hp (fun n h => (hb n h).1) (by rw [hl']; exact hc.outs)
  refine ⟨_, ws', by simp [useSpan, hs, he, hfin]; rfl, by simp [cut_length], ?_⟩
  intro i j n hin' hj
  have hlt : i < c.now.length := by
    rcases Nat.lt_or_ge i c.now.length with h | h
    · exact h
    · simp [List.getElem?_eq_none h] at hin'
  have hlc : i < (cut c.now (ws'.drop (ws'.length - c.now.sum))).length := by rw [cut_length]; exact hlt
  have hget : (((cut c.now (ws'.drop (ws'.length - c.now.sum))).map (ofBits w)).getD i 0).getLsbD j =
      ((cut c.now (ws'.drop (ws'.length - c.now.sum))).getD i []).getD j false := by
    rw [List.getD_eq_getElem?_getD, List.getElem?_map, List.getElem?_eq_getElem hlc, Option.map_some, Option.getD_some,
      ofBits_get _ _ _ hj, List.getD_eq_getElem?_getD (l := cut _ _), List.getElem?_eq_getElem hlc, Option.getD_some]
  have hsum : (c.now.take i).sum + n ≤ c.nOut := by
    have h1 : c.now = c.now.take i ++ n :: c.now.drop (i + 1) := by
      have hn' : c.now[i] = n := by
        have := List.getElem?_eq_getElem hlt; rw [this] at hin'; exact Option.some.inj hin'
      rw [← hn', ← List.drop_eq_getElem_cons hlt, List.take_append_drop]
    have h2 := congrArg List.sum h1
    simp only [List.sum_append, List.sum_cons] at h2
    rw [Circ.nOut]; omega
  split
  · rename_i hjn
    have hwlt : c.nw - c.nOut + ((c.now.take i).sum + j) < c.nw := by have := hc.outs; omega
    obtain ⟨b, hb'⟩ := ht (c.nw - c.nOut + ((c.now.take i).sum + j)) (hc.outsSet _ (by omega) hwlt)
    have hval := hv _ b hb'
    have : (((cut c.now (ws'.drop (ws'.length - c.now.sum))).map (ofBits w)).getD i 0).getLsbD j = b := by
      rw [hget, cut_get _ _ i j n hin' hjn, List.getD_eq_getElem?_getD, List.getElem?_drop, hl']
      have e : c.nw - c.now.sum + ((c.now.take i).sum + j) = c.nw - c.nOut + ((c.now.take i).sum + j) := rfl
      rw [e, hval]; rfl
    rw [this]; exact hb'
  · rename_i hjn
    rw [hget]
    have hlen : ((cut c.now (ws'.drop (ws'.length - c.now.sum))).map List.length)[i]? = some n := by
      rw [(cut_flatten c.now _ (by simp; have := hc.outs; rw [Circ.nOut] at this; omega)).2]; exact hin'
    rw [List.getElem?_map] at hlen
    rw [List.getD_eq_getElem?_getD (l := cut _ _)]
    rw [List.getElem?_eq_getElem hlc] at hlen ⊢
    simp only [Option.map_some, Option.some.injEq] at hlen
    rw [Option.getD_some, List.getD_eq_getElem?_getD, List.getElem?_eq_none (by omega)]; rfl

/-! ### Violations -/

/-- **C30** fails for spans: on an executor that has already run this circuit, `SetupInputs(Span)` ignores its arguments -
the wires of the earlier run stay. -/
theorem C30_span_ignores_inputs (w : Nat) (c : Circ) (ws0 : List Bool) (h : ws0.length = c.nw) (ins : List (BitVec w))
    (hn : ins.length = c.niw.length) : setupSpan c ws0 ins = .ok ws0 := by
  simp [setupSpan, hn, resize, ← h]

/-- The identity on 64 bits. -/
def copy64 : Circ := ⟨128, [64], [64], (List.range 64).map (fun i => ⟨[i], [64 + i], .eqw⟩)⟩

/-- A concrete second use: the circuit is the identity, the first use is with 5, the second with 7 and returns 5. -/
theorem C30_span_violated : ∃ ws, useSpan 64 copy64 [] [5#64] = .ok ([5#64], ws) ∧
    (useSpan 64 copy64 ws [7#64]).bind (fun r => .ok r.1) = .ok [5#64] := by
  refine ⟨(List.range 128).map (fun i => i % 64 == 0 || i % 64 == 2), ?_, ?_⟩ <;> decide +kernel

/-- **C29** fails for `Finalize()` when the outputs do not fill whole bytes: this circuit negates its last input bit; its
only output wire holds 0, but the byte returned carries seven input wires too. -/
theorem C29_bytes_violated : ∃ c : Circ, c.nOut = 1 ∧
    (useBytes c [] [0xff]).bind (fun r => .ok r.1) = .ok [0x7f#8] :=
  ⟨⟨9, [8], [1], [⟨[7], [8], .inv⟩]⟩, by decide, by decide +kernel⟩

/-- **C29** fails for `Finalize(Span)` when the output widths are not a palindrome: here output 0 is wire 3 and output 1 is
wires 4, 5, (values 1 and 0, 0), yet the first output returned is 1, 0 and the second 0. -/
theorem C29_span_violated : ∃ c : Circ, c.now = [1, 2] ∧
    (exec c [true, false, false, false, false, false]).bind (finalizeSpan 64 c) = .ok [0b01, 0] :=
  ⟨⟨6, [3], [1, 2], [⟨[0], [3], .eqw⟩, ⟨[1], [4], .eqw⟩, ⟨[2], [5], .eqw⟩]⟩, by decide, by decide +kernel⟩

/-- Non-vacuity: a circuit with an XOR, an AND and an INV whose hypotheses hold. -/
def demo : Circ := ⟨24, [8], [8], [⟨[0, 1], [8], .xor⟩, ⟨[8, 2], [9], .and⟩, ⟨[9], [10], .inv⟩, ⟨[1], [11], .eq⟩] ++
  (List.range 4).map (fun i => ⟨[i], [12 + i], .eqw⟩) ++ (List.range 8).map (fun i => ⟨[8 + i], [16 + i], .inv⟩)⟩

theorem wf_of_check (c : Circ) (h1 : c.nIn ≤ c.nw) (h2 : c.nOut ≤ c.nw) (ha : ∀ g ∈ c.gates, g.Arity)
    (hr : ∀ g ∈ c.gates, ∀ w ∈ g.ow, c.nIn ≤ w ∧ w < c.nw)
    (hd : ∀ i : Fin c.gates.length, ∀ w ∈ c.gates[i].reads, w < c.nIn ∨ ∃ g ∈ c.gates.take i, w ∈ g.ow)
    (hf : ∀ i : Fin c.gates.length, ∀ w ∈ c.gates[i].ow, ∀ g ∈ c.gates.take i, w ∉ g.ow)
    (ho : ∀ w : Fin c.nw, c.nw - c.nOut ≤ w → (w : Nat) < c.nIn ∨ ∃ g ∈ c.gates, (w : Nat) ∈ g.ow) : c.WF := by
  refine ⟨h1, h2, ha, hr, ?_, ?_, fun w a b => ho ⟨w, b⟩ a⟩
  · intro pre g post he w hw
    have hl : pre.length < c.gates.length := by rw [he]; simp
    have := hd ⟨pre.length, hl⟩ w (by simpa [he] using hw)
    rw [Circ.Avail]
    simpa [he] using this
  · intro pre g post he w hw g' hg'
    have hl : pre.length < c.gates.length := by rw [he]; simp
    exact hf ⟨pre.length, hl⟩ w (by simpa [he] using hw) g' (by simpa [he] using hg')

theorem demo_wf : demo.WF := by
  apply wf_of_check
  · decide
  · decide
  · intro g hg
    have : ∀ g ∈ demo.gates, (g.op = .xor ∨ g.op = .and) ∧ g.iw.length = 2 ∧ g.ow.length = 1 ∨
      (g.op = .inv ∨ g.op = .eq ∨ g.op = .eqw) ∧ g.iw.length = 1 ∧ g.ow.length = 1 := by decide
    rcases this g hg with ⟨h | h, h'⟩ | ⟨h | h | h, h'⟩ <;> simp [Gate.Arity, h, h']
  · decide +kernel
  · decide +kernel
  · decide +kernel
  · decide +kernel

example : ∃ out ws, useBytes demo [true] [0b101] = .ok (out, ws) ∧ out.length * 8 = demo.nOut :=
  let ⟨o, w, h, l, _⟩ := C29_bytes_partial demo demo_wf [true] [0b101] (by decide) (by decide) (by decide)
  ⟨o, w, h, l⟩

example : (useBytes demo [] [0b101]).bind (fun r => .ok r.1) = .ok [0b10100100#8] := by decide +kernel

example : ∃ out ws, useSpan 8 demo [] [0b101] = .ok (out, ws) ∧ out.length = 1 :=
  let ⟨o, w, h, l, _⟩ := C29_span_partial 8 demo demo_wf [0b101] (by decide) (by decide) (by decide) (by decide)
  ⟨o, w, h, l⟩

end Yacl.Circuit
