import Mathlib.Data.List.Basic
import Mathlib.Tactic.ByContra
import Mathlib.Tactic.Ring
import Mathlib.Tactic.LinearCombination
import Mathlib.Data.BitVec

/-! Distributed point function: yacl/crypto/experimental/dpf/{ge2n.h, dpf.h, dpf.cc}. Properties C44, C45.

The two pseudo-random generators (`SplitDpfSeed`, `DpfPRG`) are arbitrary functions. -/
namespace Yacl.Dpf

/-- `uint128_t` -/
abbrev B := BitVec 128

/-! ### Group elements: ge2n.h -/

/-- ge2n.h L35-36 `GetVal`: the low `N` bits of the store. `N ≤ 128`. -/
def getVal (N : Nat) (x : B) : B := (x.setWidth N).setWidth 128

/-- ge2n.h L81-82 `kMask_`. -/
def mask (N : Nat) : B := (BitVec.allOnes N).setWidth 128

/-- ge2n.h L54-57 `GetReverse`. -/
def reverse (N : Nat) (x : B) : B := mask N - getVal N x + 1

/-! ### Keys and evaluation -/

/-- dpf.h L46-72 `DpfKey::CW`. -/
structure CW where
  seed : B
  lt : Bool
  rt : Bool
deriving DecidableEq

/-- dpf.h L43-98 `DpfKey`. -/
structure Key where
  rank : Bool
  mseed : B
  evalAll : Bool
  cws : List CW
  last : List B
deriving DecidableEq

/-- `SplitDpfSeed`: left seed, left bit, right seed, right bit. -/
abbrev Split := B → B × Bool × B × Bool

/-- dpf.cc L139-177: one level of key generation; the state is `seeds_working`, `t_working`. -/
def genStep (split : Split) (alphaBit : Bool) (st : (B × Bool) × (B × Bool)) : CW × ((B × Bool) × (B × Bool)) :=
  let ((s0, t0), (s1, t1)) := st
  let (sl0, tl0, sr0, tr0) := split s0
  let (sl1, tl1, sr1, tr1) := split s1
  let keep0 := if alphaBit then sr0 else sl0
  let keep1 := if alphaBit then sr1 else sl1
  let lose0 := if alphaBit then sl0 else sr0
  let lose1 := if alphaBit then sl1 else sr1
  let tk0 := if alphaBit then tr0 else tl0
  let tk1 := if alphaBit then tr1 else tl1
  let cwSeed := lose0 ^^^ lose1
  let cwL := tl0 ^^ tl1 ^^ alphaBit ^^ true
  let cwR := tr0 ^^ tr1 ^^ alphaBit
  let cwK := if alphaBit then cwR else cwL
  let n0 := if t0 then keep0 ^^^ cwSeed else keep0
  let n1 := if t1 then keep1 ^^^ cwSeed else keep1
  (⟨cwSeed, cwL, cwR⟩, ((n0, tk0 ^^ (t0 && cwK)), (n1, tk1 ^^ (t1 && cwK))))

/-- dpf.cc L133-177: `n` levels from level `i` on. -/
def genLoop (split : Split) (alpha : B) : Nat → Nat → (B × Bool) × (B × Bool) → List CW × ((B × Bool) × (B × Bool))
  | _, 0, st => ([], st)
  | i, n + 1, st =>
    let r := genStep split (alpha.getLsbD i) st
    let q := genLoop split alpha (i + 1) n r.2
    (r.1 :: q.1, q.2)

/-- One level of evaluation, `bit` being the input's (dpf.cc L232-261, and both halves of L65-86). -/
def evalStep (split : Split) (cw : CW) (bit : Bool) (st : B × Bool) : B × Bool :=
  let (sl, tl, sr, tr) := split st.1
  let sl := if st.2 then sl ^^^ cw.seed else sl
  let tl := tl ^^ (st.2 && cw.lt)
  let sr := if st.2 then sr ^^^ cw.seed else sr
  let tr := tr ^^ (st.2 && cw.rt)
  if bit then (sr, tr) else (sl, tl)

/-- dpf.cc L228-262: the loop of `DpfEval`; `none` for an access beyond `cws_vec`. -/
def evalLoop (split : Split) (x : B) : Nat → Nat → List CW → B × Bool → Option (B × Bool)
  | _, 0, _, st => some st
  | _, _ + 1, [], _ => none
  | i, n + 1, cw :: cws, st => evalLoop split x (i + 1) n cws (evalStep split cw (x.getLsbD i) st)

/-- The final correction words, `i`-th from the `i`-fold expanded values (dpf.cc L189-222). -/
def lastWords (prg : B → B) (N : Nat) (beta : B) (pos : Nat) (t1 : Bool) : Nat → Nat → B → B → List B
  | _, 0, _, _ => []
  | i, n + 1, p0, p1 =>
    let cw := if i = pos then beta + reverse N p0 + p1 else reverse N p0 + p1
    (if t1 then getVal N (reverse N cw) else getVal N cw) :: lastWords prg N beta pos t1 (i + 1) n (prg (getVal N p0)) (prg (getVal N p1))

/-- dpf.cc L108-224 `DpfKeyGen<M, N>`. `term` is `GetTerminateLevel(enable_evalall, M, N)`, computed in floating point: `M` if `all` is false, some level `≤ M` otherwise
(for the instantiated `N`, 64 and 128, it is `M`). `M - term < 32`. -/
def keyGen (split : Split) (prg : B → B) (M N term : Nat) (alpha beta mk0 mk1 : B) (all : Bool) : Key × Key :=
  let (cws, ((s0, _), (s1, t1))) := genLoop split alpha 0 term ((mk0, false), (mk1, true))
  let p0 := prg s0
  let p1 := prg s1
  if all then
    let l := lastWords prg N beta ((getVal M alpha).toNat >>> term) t1 0 (2 ^ (M - term)) p0 p1
    (⟨false, mk0, true, cws, l⟩, ⟨true, mk1, true, cws, l⟩)
  else
    let w := getVal N (beta + reverse N p0 + p1)
    let w := if t1 then getVal N (reverse N w) else w
    (⟨false, mk0, false, cws, [w]⟩, ⟨true, mk1, false, cws, [w]⟩)

/-- The value at the end of a path (dpf.cc L264-270 and L94-96). -/
def output (N : Nat) (rank : Bool) (p : B) (t : Bool) (w : B) : B :=
  let s := p + (if t then w else 0)
  if rank then reverse N s else s

/-- dpf.cc L226-271 `DpfEval<M, N>`; `none` if it throws or reads outside the key. -/
def eval (split : Split) (prg : B → B) (M N : Nat) (key : Key) (x : B) : Option B :=
  if key.evalAll = false then
    match evalLoop split x 0 M key.cws (key.mseed, key.rank) with
    | none => none
    | some (s, t) =>
      match key.last with
      | [] => none
      | w :: _ => some (getVal N (output N key.rank (prg s) t w))
  else none

/-- dpf.cc L90-100: the values below a leaf, as writes `(position, value)`; `none` for a read beyond `last_cw_vec`. -/
def leafWrites (prg : B → B) (N term pos : Nat) (rank t : Bool) : Nat → Nat → B → List B → Option (List (Nat × B))
  | _, 0, _, _ => some []
  | _, _ + 1, _, [] => none
  | i, n + 1, p, w :: ws =>
    match leafWrites prg N term pos rank t (i + 1) n (prg (getVal N p)) ws with
    | none => none
    | some r => some ((pos + i <<< term, output N rank p t w) :: r)

/-- dpf.cc L62-102 `Traverse`: the writes to `result`, in order. `n` is the number of levels left. -/
def traverse (split : Split) (prg : B → B) (N term expand : Nat) (rank : Bool) (last : List B) : Nat → Nat → Nat → List CW → B × Bool → Option (List (Nat × B))
  | _, pos, 0, _, st => leafWrites prg N term pos rank st.2 0 expand (prg st.1) last
  | _, _, _ + 1, [], _ => none
  | level, pos, n + 1, cw :: cws, st =>
    match traverse split prg N term expand rank last (level + 1) pos n cws (evalStep split cw false st),
      traverse split prg N term expand rank last (level + 1) (1 <<< level + pos) n cws (evalStep split cw true st) with
    | some l, some r => some (l ++ r)
    | _, _ => none

/-- Performing the writes; `none` for a write outside the output. -/
def write : List (Nat × B) → List B → Option (List B)
  | [], out => some out
  | (i, v) :: ws, out => if i < out.length then write ws (out.set i v) else none

/-- dpf.cc L273-289 `DpfEvalAll<M, N>`. `i << term_level` is a shift of a 32-bit value, undefined from 32 on: `none`. -/
def evalAll (split : Split) (prg : B → B) (M N term : Nat) (key : Key) (out : List B) : Option (List B) :=
  if key.evalAll = true then
    if term < 32 then
      match traverse split prg N term (2 ^ (M - term)) key.rank key.last 0 0 term key.cws (key.mseed, key.rank) with
      | none => none
      | some ws => write ws out
    else none
  else none

/-! ### Specification -/

/-- The value of a share: what `GetVal` shows, an integer modulo `2^N`. -/
def share (N : Nat) (x : B) : BitVec N := x.setWidth N

/-- Two shares of the point function that is `beta` at `alpha` and 0 elsewhere. -/
def PointShares (M N : Nat) (alpha beta : B) (x : B) (y0 y1 : B) : Prop :=
  share N y0 + share N y1 = if x.setWidth M = alpha.setWidth M then share N beta else 0

/-! ### Lemmas -/

theorem share_getVal (N : Nat) (hN : N ≤ 128) (x : B) : share N (getVal N x) = share N x := by
  unfold share getVal
  rw [BitVec.setWidth_setWidth_of_le _ hN]
  exact BitVec.setWidth_eq _

theorem share_add (N : Nat) (hN : N ≤ 128) (x y : B) : share N (x + y) = share N x + share N y := by
  unfold share
  exact BitVec.setWidth_add x y hN

theorem share_reverse (N : Nat) (hN : N ≤ 128) (x : B) : share N (reverse N x) = - share N x := by
  have hm : share N (mask N) = BitVec.allOnes N := by
    unfold share mask
    rw [BitVec.setWidth_setWidth_of_le _ hN, BitVec.setWidth_eq]
  have hs : share N (mask N - getVal N x) = BitVec.allOnes N - share N x := by
    have h1 : share N (mask N - getVal N x) + share N (getVal N x) = share N (mask N) := by
      rw [← share_add N hN, BitVec.sub_add_cancel]
    rw [share_getVal N hN, hm] at h1
    rw [← h1, BitVec.add_sub_cancel]
  unfold reverse
  rw [share_add N hN, hs]
  have h2 : BitVec.allOnes N + share N 1 = 0 := by
    rw [← BitVec.neg_one_eq_allOnes]
    have : share N (1 : B) = 1#N := by
      unfold share
      apply BitVec.eq_of_toNat_eq
      simp
    rw [this, BitVec.add_comm, ← BitVec.sub_eq_add_neg]
    exact BitVec.sub_self _
  rw [BitVec.sub_eq_add_neg, BitVec.add_assoc, BitVec.add_comm (-share N x), ← BitVec.add_assoc, h2]
  exact BitVec.zero_add _

theorem xor_cancel (a b : B) : a = b ^^^ (a ^^^ b) := by
  rw [BitVec.xor_comm a b, ← BitVec.xor_assoc, BitVec.xor_self]
  exact BitVec.zero_xor.symm

/-- One level on the path of `alpha`, and one level leaving it. -/
theorem step_spec (split : Split) (bit : Bool) (s0 s1 : B) (t0 t1 : Bool) (ht : t0 ≠ t1) :
    (genStep split bit ((s0, t0), (s1, t1))).2 =
      (evalStep split (genStep split bit ((s0, t0), (s1, t1))).1 bit (s0, t0), evalStep split (genStep split bit ((s0, t0), (s1, t1))).1 bit (s1, t1)) ∧
    (evalStep split (genStep split bit ((s0, t0), (s1, t1))).1 bit (s0, t0)).2 ≠ (evalStep split (genStep split bit ((s0, t0), (s1, t1))).1 bit (s1, t1)).2 ∧
    evalStep split (genStep split bit ((s0, t0), (s1, t1))).1 (!bit) (s0, t0) = evalStep split (genStep split bit ((s0, t0), (s1, t1))).1 (!bit) (s1, t1) := by
  unfold genStep evalStep
  simp only
  generalize split s0 = q0
  generalize split s1 = q1
  obtain ⟨a0, b0, c0, d0⟩ := q0
  obtain ⟨a1, b1, c1, d1⟩ := q1
  cases bit <;> cases t0 <;> cases t1 <;> simp only [ne_eq, not_true_eq_false, reduceCtorEq, not_false_eq_true] at ht <;>
    simp only [Bool.false_eq_true, if_false, if_true, Bool.not_false, Bool.not_true, Bool.false_and, Bool.true_and, Prod.mk.injEq, true_and]
  · refine ⟨?_, ?_, ?_⟩
    · cases b0 <;> cases b1 <;> simp
    · exact xor_cancel _ _
    · cases d0 <;> cases d1 <;> simp
  · refine ⟨?_, ?_, ?_⟩
    · cases b0 <;> cases b1 <;> simp
    · rw [BitVec.xor_comm c0 c1]; exact (xor_cancel _ _).symm
    · cases d0 <;> cases d1 <;> simp
  · refine ⟨?_, ?_, ?_⟩
    · cases d0 <;> cases d1 <;> simp
    · exact xor_cancel _ _
    · cases b0 <;> cases b1 <;> simp
  · refine ⟨?_, ?_, ?_⟩
    · cases d0 <;> cases d1 <;> simp
    · rw [BitVec.xor_comm a0 a1]; exact (xor_cancel _ _).symm
    · cases b0 <;> cases b1 <;> simp

theorem genLoop_length (split : Split) (alpha : B) (i n : Nat) (st) : (genLoop split alpha i n st).1.length = n := by
  induction n generalizing i st with
  | zero => rfl
  | succ n ih => simp [genLoop, ih]

theorem evalLoop_some (split : Split) (x : B) (i n : Nat) (cws : List CW) (st : B × Bool) (h : cws.length = n) : ∃ r, evalLoop split x i n cws st = some r := by
  induction n generalizing i cws st with
  | zero => exact ⟨st, by cases cws <;> rfl⟩
  | succ n ih =>
    cases cws with
    | nil => simp at h
    | cons cw cws => exact ih _ cws _ (by simpa using h)

theorem loop_spec (split : Split) (alpha x : B) (i n : Nat) (s0 s1 : B) (t0 t1 : Bool) (ht : t0 ≠ t1) :
    ((∀ j, i ≤ j → j < i + n → x.getLsbD j = alpha.getLsbD j) →
      evalLoop split x i n (genLoop split alpha i n ((s0, t0), (s1, t1))).1 (s0, t0) = some (genLoop split alpha i n ((s0, t0), (s1, t1))).2.1 ∧
      evalLoop split x i n (genLoop split alpha i n ((s0, t0), (s1, t1))).1 (s1, t1) = some (genLoop split alpha i n ((s0, t0), (s1, t1))).2.2 ∧
      (genLoop split alpha i n ((s0, t0), (s1, t1))).2.1.2 ≠ (genLoop split alpha i n ((s0, t0), (s1, t1))).2.2.2) ∧
    ((∃ j, i ≤ j ∧ j < i + n ∧ x.getLsbD j ≠ alpha.getLsbD j) →
      evalLoop split x i n (genLoop split alpha i n ((s0, t0), (s1, t1))).1 (s0, t0) = evalLoop split x i n (genLoop split alpha i n ((s0, t0), (s1, t1))).1 (s1, t1)) := by
  induction n generalizing i s0 s1 t0 t1 with
  | zero =>
    refine ⟨fun _ => ⟨rfl, rfl, ht⟩, ?_⟩
    rintro ⟨j, h1, h2, -⟩
    omega
  | succ n ih =>
    obtain ⟨e1, e2, e3⟩ := step_spec split (alpha.getLsbD i) s0 s1 t0 t1 ht
    simp only [genLoop, evalLoop]
    generalize hg : genStep split (alpha.getLsbD i) ((s0, t0), (s1, t1)) = g at *
    obtain ⟨cw, st⟩ := g
    simp only at e1 e2 e3 ⊢
    by_cases hb : x.getLsbD i = alpha.getLsbD i
    · rw [hb]
      generalize evalStep split cw (alpha.getLsbD i) (s0, t0) = r0 at *
      generalize evalStep split cw (alpha.getLsbD i) (s1, t1) = r1 at *
      subst e1
      obtain ⟨s0', t0'⟩ := r0
      obtain ⟨s1', t1'⟩ := r1
      obtain ⟨i1, i2⟩ := ih (i + 1) s0' s1' t0' t1' e2
      refine ⟨fun h => i1 fun j h1 h2 => h j (by omega) (by omega), ?_⟩
      rintro ⟨j, h1, h2, h3⟩
      have hj : j ≠ i := fun h => h3 (h ▸ hb)
      exact i2 ⟨j, by omega, by omega, h3⟩
    · refine ⟨fun h => absurd (h i (Nat.le_refl _) (by omega)) hb, fun _ => ?_⟩
      have : x.getLsbD i = !alpha.getLsbD i := by
        cases h1 : x.getLsbD i <;> cases h2 : alpha.getLsbD i <;> simp_all
      rw [this, e3]

theorem low_eq_iff (M : Nat) (hM : M ≤ 128) (x alpha : B) : x.setWidth M = alpha.setWidth M ↔ ∀ j, 0 ≤ j → j < 0 + M → x.getLsbD j = alpha.getLsbD j := by
  constructor
  · intro h j _ hj
    have := congrArg (·.getLsbD j) h
    simp only [BitVec.getLsbD_setWidth] at this
    simpa [show j < M by omega] using this
  · intro h
    apply BitVec.eq_of_getLsbD_eq
    intro j hj
    rw [BitVec.getLsbD_setWidth, BitVec.getLsbD_setWidth, h j (by omega) (by omega)]

/-- The values at the end of two paths. `w` is what the last correction word stands for. -/
theorem output_same (N : Nat) (hN : N ≤ 128) (p : B) (t : Bool) (w : B) : share N (output N false p t w) + share N (output N true p t w) = 0 := by
  unfold output
  simp only [Bool.false_eq_true, if_false, if_true]
  rw [share_reverse N hN, BitVec.add_comm, BitVec.add_comm, ← BitVec.sub_eq_add_neg]
  exact BitVec.sub_self _

theorem output_alpha (N : Nat) (hN : N ≤ 128) (p0 p1 : B) (t0 t1 : Bool) (ht : t0 ≠ t1) (w b : B)
    (hw : share N w = if t1 then -(share N b + -share N p0 + share N p1) else share N b + -share N p0 + share N p1) :
    share N (output N false p0 t0 w) + share N (output N true p1 t1 w) = share N b := by
  unfold output
  simp only [Bool.false_eq_true, if_false, if_true]
  rw [share_reverse N hN, share_add N hN, share_add N hN]
  have h0 : share N (0 : B) = 0 := by unfold share; simp
  cases t0 <;> cases t1 <;> simp only [ne_eq, not_true_eq_false, reduceCtorEq, not_false_eq_true, Bool.false_eq_true, if_false, if_true] at ht hw ⊢
  · rw [hw, h0]
    generalize share N p0 = x
    generalize share N p1 = y
    generalize share N b = z
    ring
  · rw [hw, h0]
    generalize share N p0 = x
    generalize share N p1 = y
    generalize share N b = z
    ring

/-! ### C44 -/

/-- C44. For every domain size `M`, output size `N`, point `alpha`, value `beta`, master keys, generators and input `x`: both evaluations of the generated keys succeed and
their values sum to `beta` modulo `2^N` if `x = alpha` (in the low `M` bits), and to zero otherwise. -/
theorem C44_point_function (split : Split) (prg : B → B) (M N : Nat) (hM : M ≤ 128) (hN : N ≤ 128) (alpha beta mk0 mk1 x : B) :
    ∃ y0 y1, eval split prg M N (keyGen split prg M N M alpha beta mk0 mk1 false).1 x = some y0 ∧
      eval split prg M N (keyGen split prg M N M alpha beta mk0 mk1 false).2 x = some y1 ∧ PointShares M N alpha beta x y0 y1 := by
  obtain ⟨h1, h2⟩ := loop_spec split alpha x 0 M mk0 mk1 false true (by simp)
  unfold keyGen eval
  generalize hg : genLoop split alpha 0 M ((mk0, false), (mk1, true)) = g at *
  obtain ⟨cws, ⟨s0, t0⟩, ⟨s1, t1⟩⟩ := g
  have hl : cws.length = M := by
    have := genLoop_length split alpha 0 M ((mk0, false), (mk1, true))
    rwa [hg] at this
  simp only [Bool.false_eq_true, if_false] at h1 h2 ⊢
  unfold PointShares
  by_cases hx : x.setWidth M = alpha.setWidth M
  · obtain ⟨e1, e2, e3⟩ := h1 ((low_eq_iff M hM x alpha).mp hx)
    rw [e1, e2, if_pos hx]
    refine ⟨_, _, rfl, rfl, ?_⟩
    rw [share_getVal N hN, share_getVal N hN]
    apply output_alpha N hN _ _ _ _ e3
    cases t1
    · simp only [Bool.false_eq_true, if_false]
      rw [share_getVal N hN, share_add N hN, share_add N hN, share_reverse N hN]
    · simp only [if_true]
      rw [share_getVal N hN, share_reverse N hN, share_getVal N hN, share_add N hN, share_add N hN, share_reverse N hN]
  · have hex : ∃ j, 0 ≤ j ∧ j < 0 + M ∧ x.getLsbD j ≠ alpha.getLsbD j := by
      by_contra hc
      exact hx ((low_eq_iff M hM x alpha).mpr fun j ha hb => by
        by_contra hne
        exact hc ⟨j, ha, hb, hne⟩)
    have e := h2 hex
    obtain ⟨⟨s, t⟩, hr⟩ := evalLoop_some split x 0 M cws (mk0, false) hl
    rw [← e, hr, if_neg hx]
    refine ⟨_, _, rfl, rfl, ?_⟩
    rw [share_getVal N hN, share_getVal N hN]
    exact output_same N hN _ _ _

/-- Keys made for full-domain evaluation are refused by `DpfEval`. -/
theorem C44_refused (split : Split) (prg : B → B) (M N term : Nat) (alpha beta mk0 mk1 x : B) :
    eval split prg M N (keyGen split prg M N term alpha beta mk0 mk1 true).1 x = none ∧ eval split prg M N (keyGen split prg M N term alpha beta mk0 mk1 true).2 x = none := by
  unfold eval keyGen
  simp

/-- A concrete key pair: domain of 8 points, 64-bit values; the values at 5 differ by 77 and the others agree. -/
example : let split : Split := fun s => (s * 3 + 1, s.getLsbD 3, s * 5 + 2, s.getLsbD 1)
    let k := keyGen split (· * 7) 3 64 3 5 77 123 456 false
    (List.range 8).map (fun x => (((eval split (· * 7) 3 64 k.1 (BitVec.ofNat 128 x)).getD 0 + (eval split (· * 7) 3 64 k.2 (BitVec.ofNat 128 x)).getD 0).setWidth 64).toNat) =
      [0, 0, 0, 0, 0, 77, 0, 0] := by decide +kernel

/-! ### C45 -/

theorem write_spec (val : Nat → B) (ws : List (Nat × B)) (out : List B) (h : ∀ q ∈ ws, q.1 < out.length ∧ q.2 = val q.1) :
    ∃ r, write ws out = some r ∧ r.length = out.length ∧ ∀ (k : Nat), ((∃ q ∈ ws, q.1 = k) → r[k]? = some (val k)) ∧ ((∀ q ∈ ws, q.1 ≠ k) → r[k]? = out[k]?) := by
  induction ws generalizing out with
  | nil => exact ⟨out, rfl, rfl, fun k => ⟨by simp, fun _ => rfl⟩⟩
  | cons q ws ih =>
    obtain ⟨i, v⟩ := q
    obtain ⟨h1, h2⟩ := h (i, v) (by simp)
    simp only at h1 h2
    subst h2
    obtain ⟨r, e1, e2, e3⟩ := ih (out.set i (val i)) (fun q hq => by
      have := h q (by simp [hq])
      rw [List.length_set]
      exact this)
    refine ⟨r, by rw [write, if_pos h1, e1], by rw [e2, List.length_set], fun k => ⟨?_, ?_⟩⟩
    · rintro ⟨q, hq, rfl⟩
      by_cases hw : ∃ q' ∈ ws, q'.1 = q.1
      · exact (e3 q.1).1 hw
      · rw [(e3 q.1).2 (fun q' h' h'' => hw ⟨q', h', h''⟩)]
        rcases List.mem_cons.mp hq with rfl | hq
        · rw [List.getElem?_set_self h1]
        · exact absurd ⟨q, hq, rfl⟩ hw
    · intro hk
      rw [(e3 k).2 (fun q hq => hk q (by simp [hq])), List.getElem?_set_ne (hk (i, val i) (by simp))]

/-- The values below a leaf. -/
def iter (prg : B → B) (N : Nat) : Nat → B → B
  | 0, p => p
  | j + 1, p => iter prg N j (prg (getVal N p))

theorem leafWrites_spec (prg : B → B) (N term pos : Nat) (rank t : Bool) (i n : Nat) (p : B) (last : List B) (hl : last.length = n) :
    ∃ ws, leafWrites prg N term pos rank t i n p last = some ws ∧
      ∀ x v, (x, v) ∈ ws ↔ ∃ j < n, x = pos + (i + j) <<< term ∧ v = output N rank (iter prg N j p) t (last.getD j 0) := by
  induction n generalizing i p last with
  | zero => exact ⟨[], rfl, fun x v => by simp⟩
  | succ n ih =>
    cases last with
    | nil => simp at hl
    | cons w last =>
      obtain ⟨ws, e1, e2⟩ := ih (i + 1) (prg (getVal N p)) last (by simpa using hl)
      refine ⟨(pos + i <<< term, output N rank p t w) :: ws, by rw [leafWrites, e1], fun x v => ?_⟩
      rw [List.mem_cons, e2, Prod.mk.injEq]
      constructor
      · rintro (⟨rfl, rfl⟩ | ⟨j, hj, rfl, rfl⟩)
        · exact ⟨0, by omega, rfl, rfl⟩
        · exact ⟨j + 1, by omega, by rw [Nat.add_assoc i 1 j, Nat.add_comm 1 j], rfl⟩
      · rintro ⟨j, hj, rfl, rfl⟩
        cases j with
        | zero => exact Or.inl ⟨rfl, rfl⟩
        | succ j => exact Or.inr ⟨j, by omega, by rw [Nat.add_assoc i 1 j, Nat.add_comm 1 j], rfl⟩

theorem getLsbD_nat (x i : Nat) (hi : i < 128) : (BitVec.ofNat 128 x).getLsbD i = x.testBit i := by
  rw [BitVec.getLsbD_ofNat]
  simp [hi]

theorem mod_succ (x k : Nat) : x % 2 ^ (k + 1) = x % 2 ^ k + (if x.testBit k then 2 ^ k else 0) := by
  rw [Nat.pow_succ, Nat.mod_mul, Nat.testBit_eq_decide_div_mod_eq]
  rcases Nat.mod_two_eq_zero_or_one (x / 2 ^ k) with h | h <;> simp [h]

theorem traverse_spec (split : Split) (prg : B → B) (N term expand : Nat) (rank : Bool) (last : List B) (hlast : last.length = expand) (hterm : term ≤ 128) (level pos n : Nat)
    (cws : List CW) (st : B × Bool) (hn : cws.length = n) (hlev : level + n = term) (hpos : pos < 2 ^ level) :
    ∃ ws, traverse split prg N term expand rank last level pos n cws st = some ws ∧
      ∀ x v, (x, v) ∈ ws ↔ x % 2 ^ level = pos ∧ x / 2 ^ term < expand ∧ ∃ s t, evalLoop split (BitVec.ofNat 128 x) level n cws st = some (s, t) ∧
        v = output N rank (iter prg N (x / 2 ^ term) (prg s)) t (last.getD (x / 2 ^ term) 0) := by
  induction n generalizing level pos cws st with
  | zero =>
    obtain ⟨ws, e1, e2⟩ := leafWrites_spec prg N term pos rank st.2 0 expand (prg st.1) last hlast
    have hlt : level = term := by omega
    subst hlt
    refine ⟨ws, by cases cws <;> (simp only [traverse]; exact e1), fun x v => ?_⟩
    rw [e2]
    have he : ∀ x, evalLoop split (BitVec.ofNat 128 x) level 0 cws st = some st := fun x => by cases cws <;> rfl
    constructor
    · rintro ⟨j, hj, rfl, rfl⟩
      rw [Nat.zero_add, Nat.shiftLeft_eq]
      have h1 : (pos + j * 2 ^ level) / 2 ^ level = j := by
        rw [Nat.add_mul_div_right _ _ (Nat.two_pow_pos level), Nat.div_eq_of_lt hpos]
        omega
      have h2 : (pos + j * 2 ^ level) % 2 ^ level = pos := by
        rw [Nat.add_mul_mod_self_right, Nat.mod_eq_of_lt hpos]
      rw [h1, h2]
      exact ⟨rfl, hj, st.1, st.2, he _, rfl⟩
    · rintro ⟨h1, h2, s, t, h3, rfl⟩
      rw [he] at h3
      obtain rfl := Option.some.inj h3
      refine ⟨x / 2 ^ level, h2, ?_, rfl⟩
      rw [Nat.zero_add, Nat.shiftLeft_eq, ← h1]
      have := Nat.mod_add_div x (2 ^ level)
      rw [Nat.mul_comm] at this
      exact this.symm
  | succ n ih =>
    cases cws with
    | nil => simp at hn
    | cons cw cws =>
      have hp := Nat.pow_succ 2 level
      obtain ⟨ws0, e1, e2⟩ := ih (level + 1) pos cws (evalStep split cw false st) (by simpa using hn) (by omega) (by omega)
      have hsh : 1 <<< level = 2 ^ level := by rw [Nat.shiftLeft_eq, Nat.one_mul]
      obtain ⟨ws1, f1, f2⟩ := ih (level + 1) (1 <<< level + pos) cws (evalStep split cw true st) (by simpa using hn) (by omega) (by omega)
      refine ⟨ws0 ++ ws1, by rw [traverse, e1, f1], fun x v => ?_⟩
      rw [List.mem_append, e2, f2, hsh, mod_succ]
      simp only [evalLoop, getLsbD_nat x level (by omega)]
      have hm := Nat.mod_lt x (Nat.two_pow_pos level)
      cases hb : x.testBit level with
      | false =>
        simp only [Bool.false_eq_true, if_false, Nat.add_zero]
        constructor
        · rintro (h | h)
          · exact h
          · have := h.1
            omega
        · exact Or.inl
      | true =>
        simp only [if_true]
        constructor
        · rintro (h | h)
          · have := h.1
            omega
          · exact ⟨by have := h.1; omega, h.2⟩
        · intro h
          exact Or.inr ⟨by have := h.1; omega, h.2⟩

theorem lastWords_spec (prg : B → B) (N : Nat) (hN : N ≤ 128) (beta : B) (pos : Nat) (t1 : Bool) (i n : Nat) (p0 p1 : B) :
    (lastWords prg N beta pos t1 i n p0 p1).length = n ∧ ∀ j < n, share N ((lastWords prg N beta pos t1 i n p0 p1).getD j 0) =
      let b := if i + j = pos then beta else 0
      if t1 then -(share N b + -share N (iter prg N j p0) + share N (iter prg N j p1)) else share N b + -share N (iter prg N j p0) + share N (iter prg N j p1) := by
  induction n generalizing i p0 p1 with
  | zero => exact ⟨rfl, fun j hj => by omega⟩
  | succ n ih =>
    obtain ⟨h1, h2⟩ := ih (i + 1) (prg (getVal N p0)) (prg (getVal N p1))
    refine ⟨by simp [lastWords, h1], fun j hj => ?_⟩
    cases j with
    | zero =>
      simp only [lastWords, List.getD_cons_zero, Nat.add_zero, iter]
      have h0 : share N (0 : B) = 0 := by unfold share; simp
      have hcw : share N (if i = pos then beta + reverse N p0 + p1 else reverse N p0 + p1) = share N (if i = pos then beta else 0) + -share N p0 + share N p1 := by
        split
        · rw [share_add N hN, share_add N hN, share_reverse N hN]
        · rw [share_add N hN, share_reverse N hN, h0, zero_add]
      cases t1
      · simp only [Bool.false_eq_true, if_false]
        rw [share_getVal N hN, hcw]
      · simp only [if_true]
        rw [share_getVal N hN, share_reverse N hN, hcw]
    | succ j =>
      simp only [lastWords, List.getD_cons_succ, iter]
      have := h2 j (by omega)
      rw [this, show i + 1 + j = i + (j + 1) by omega]

/-- C45, in part. For every domain size `M`, level of early termination `term < 32`, point, value, master keys and generators: both full-domain evaluations succeed on outputs
of at least `2^M` elements; at every position `x < 2^M` the two results sum to `beta` if `x = alpha` and to zero otherwise; the rest of the outputs is untouched. Missing:
`term ≥ 32`, where the code shifts a 32-bit value by 32 or more. -/
theorem C45_evalAll_partial (split : Split) (prg : B → B) (M N term : Nat) (hM : M ≤ 128) (hN : N ≤ 128) (ht : term ≤ M) (ht32 : term < 32) (alpha beta mk0 mk1 : B) (out0 out1 : List B)
    (h0 : 2 ^ M ≤ out0.length) (h1 : 2 ^ M ≤ out1.length) :
    ∃ r0 r1, evalAll split prg M N term (keyGen split prg M N term alpha beta mk0 mk1 true).1 out0 = some r0 ∧
      evalAll split prg M N term (keyGen split prg M N term alpha beta mk0 mk1 true).2 out1 = some r1 ∧ r0.length = out0.length ∧ r1.length = out1.length ∧
      (∀ x < 2 ^ M, PointShares M N alpha beta (BitVec.ofNat 128 x) (r0.getD x 0) (r1.getD x 0)) ∧
      ∀ x, 2 ^ M ≤ x → r0[x]? = out0[x]? ∧ r1[x]? = out1[x]? := by
  unfold keyGen evalAll
  generalize hg : genLoop split alpha 0 term ((mk0, false), (mk1, true)) = g
  obtain ⟨cws, ⟨s0, t0⟩, ⟨s1, t1⟩⟩ := g
  have hl : cws.length = term := by
    have := genLoop_length split alpha 0 term ((mk0, false), (mk1, true))
    rwa [hg] at this
  simp only [if_true, ht32]
  obtain ⟨l1, l2⟩ := lastWords_spec prg N hN beta ((getVal M alpha).toNat >>> term) t1 0 (2 ^ (M - term)) (prg s0) (prg s1)
  generalize lastWords prg N beta ((getVal M alpha).toNat >>> term) t1 0 (2 ^ (M - term)) (prg s0) (prg s1) = last at *
  have hdiv : ∀ x, x / 2 ^ term < 2 ^ (M - term) ↔ x < 2 ^ M := by
    intro x
    rw [Nat.div_lt_iff_lt_mul (Nat.two_pow_pos term), ← Nat.pow_add, Nat.sub_add_cancel ht]
  have hev : ∀ x st, ∃ q : B × Bool, evalLoop split (BitVec.ofNat 128 x) 0 term cws st = some q := fun x st => evalLoop_some split _ 0 term cws st hl
  choose q hq using hev
  have party : ∀ (rank : Bool) (mk : B) (out : List B), 2 ^ M ≤ out.length → ∃ ws r, traverse split prg N term (2 ^ (M - term)) rank last 0 0 term cws (mk, rank) = some ws ∧
      write ws out = some r ∧ r.length = out.length ∧
      (∀ x < 2 ^ M, r.getD x 0 = output N rank (iter prg N (x / 2 ^ term) (prg (q x (mk, rank)).1)) (q x (mk, rank)).2 (last.getD (x / 2 ^ term) 0)) ∧
      ∀ x, 2 ^ M ≤ x → r[x]? = out[x]? := by
    intro rank mk out hout
    obtain ⟨ws, e1, e2⟩ := traverse_spec split prg N term (2 ^ (M - term)) rank last l1 (by omega) 0 0 term cws (mk, rank) hl (by omega) (by simp)
    obtain ⟨r, w1, w2, w3⟩ := write_spec (fun x => output N rank (iter prg N (x / 2 ^ term) (prg (q x (mk, rank)).1)) (q x (mk, rank)).2 (last.getD (x / 2 ^ term) 0)) ws out (by
      rintro ⟨x, v⟩ hx
      obtain ⟨-, a2, s, t, a3, a4⟩ := (e2 x v).mp hx
      rw [hq] at a3
      have a5 := Option.some.inj a3
      refine ⟨Nat.lt_of_lt_of_le ((hdiv x).mp a2) hout, ?_⟩
      simp only [a5]
      exact a4)
    refine ⟨ws, r, e1, w1, w2, fun x hx => ?_, fun x hx => ?_⟩
    · rw [List.getD_eq_getElem?_getD, (w3 x).1 ⟨(x, _), (e2 x _).mpr ⟨by simp [Nat.mod_one], (hdiv x).mpr hx, _, _, hq x (mk, rank), rfl⟩, rfl⟩]
      rfl
    · exact (w3 x).2 fun q' h' h'' => by
        obtain ⟨x', v⟩ := q'
        have := (hdiv x').mp ((e2 x' v).mp h').2.1
        simp only at h''
        omega
  obtain ⟨ws0, r0, a1, a2, a3, a4, a5⟩ := party false mk0 out0 h0
  obtain ⟨ws1, r1, b1, b2, b3, b4, b5⟩ := party true mk1 out1 h1
  rw [a1, b1]
  refine ⟨r0, r1, a2, b2, a3, b3, fun x hx => ?_, fun x hx => ⟨a5 x hx, b5 x hx⟩⟩
  rw [a4 x hx, b4 x hx]
  obtain ⟨p1, p2⟩ := loop_spec split alpha (BitVec.ofNat 128 x) 0 term mk0 mk1 false true (by simp)
  rw [hg, ← low_eq_iff term (by omega)] at p1
  rw [hg] at p2
  simp only at p1 p2
  have hx128 : x < 2 ^ 128 := Nat.lt_of_lt_of_le hx (Nat.pow_le_pow_right (by omega) hM)
  have hA : (getVal M alpha).toNat = alpha.toNat % 2 ^ M := by
    unfold getVal
    rw [BitVec.toNat_setWidth, BitVec.toNat_setWidth]
    exact Nat.mod_eq_of_lt (Nat.lt_of_lt_of_le (Nat.mod_lt _ (Nat.two_pow_pos M)) (Nat.pow_le_pow_right (by omega) hM))
  have hsetM : (BitVec.ofNat 128 x).setWidth M = alpha.setWidth M ↔ x = alpha.toNat % 2 ^ M := by
    rw [← BitVec.toNat_inj, BitVec.toNat_setWidth, BitVec.toNat_setWidth, BitVec.toNat_ofNat, Nat.mod_eq_of_lt hx128, Nat.mod_eq_of_lt hx]
  have hsett : (BitVec.ofNat 128 x).setWidth term = alpha.setWidth term ↔ x % 2 ^ term = alpha.toNat % 2 ^ M % 2 ^ term := by
    rw [← BitVec.toNat_inj, BitVec.toNat_setWidth, BitVec.toNat_setWidth, BitVec.toNat_ofNat, Nat.mod_eq_of_lt hx128,
      Nat.mod_mod_of_dvd _ (Nat.pow_dvd_pow 2 ht)]
  unfold PointShares
  by_cases hlow : (BitVec.ofNat 128 x).setWidth term = alpha.setWidth term
  · obtain ⟨c1, c2, c3⟩ := p1 hlow
    rw [hq] at c1 c2
    rw [Option.some.inj c1, Option.some.inj c2]
    have hw := l2 (x / 2 ^ term) ((hdiv x).mpr hx)
    simp only [Nat.zero_add] at hw
    rw [output_alpha N hN _ _ _ _ c3 _ (if x / 2 ^ term = (getVal M alpha).toNat >>> term then beta else 0) hw, hA, Nat.shiftRight_eq_div_pow]
    have hl' := hsett.mp hlow
    have hiff : (BitVec.ofNat 128 x).setWidth M = alpha.setWidth M ↔ x / 2 ^ term = alpha.toNat % 2 ^ M / 2 ^ term := by
      rw [hsetM]
      constructor
      · intro h
        rw [← h]
      · intro h
        rw [← Nat.div_add_mod x (2 ^ term), ← Nat.div_add_mod (alpha.toNat % 2 ^ M) (2 ^ term), h, hl']
    have h0 : share N (0 : B) = 0 := by unfold share; simp
    by_cases hf : x / 2 ^ term = alpha.toNat % 2 ^ M / 2 ^ term
    · rw [if_pos hf, if_pos (hiff.mpr hf)]
    · rw [if_neg hf, if_neg (fun h => hf (hiff.mp h)), h0]
  · have hne : ¬ (BitVec.ofNat 128 x).setWidth M = alpha.setWidth M := fun h => hlow (hsett.mpr (by rw [← hsetM.mp h]))
    rw [if_neg hne]
    have hex : ∃ j, 0 ≤ j ∧ j < 0 + term ∧ (BitVec.ofNat 128 x).getLsbD j ≠ alpha.getLsbD j := by
      by_contra hc
      exact hlow ((low_eq_iff term (by omega) _ alpha).mpr fun j ha hb => by
        by_contra hne
        exact hc ⟨j, ha, hb, hne⟩)
    have e := p2 hex
    rw [hq, hq] at e
    rw [Option.some.inj e]
    exact output_same N hN _ _ _

/-- From 32 levels on the code has undefined behaviour: the instantiation with 32-bit inputs never yields a result. -/
theorem C45_wide_violated (split : Split) (prg : B → B) (N : Nat) (key : Key) (out : List B) : evalAll split prg 32 N 32 key out = none := by
  unfold evalAll
  simp

/-- A full-domain evaluation with early termination: 3 input bits, one of them expanded at the leaves. -/
example : let split : Split := fun s => (s * 3 + 1, s.getLsbD 3, s * 5 + 2, s.getLsbD 1)
    let k := keyGen split (· * 7) 3 64 2 5 77 123 456 true
    let r0 := (evalAll split (· * 7) 3 64 2 k.1 (List.replicate 9 1)).getD []
    let r1 := (evalAll split (· * 7) 3 64 2 k.2 (List.replicate 9 1)).getD []
    (List.range 9).map (fun x => ((r0.getD x 0 + r1.getD x 0).setWidth 64).toNat) = [0, 0, 0, 0, 0, 77, 0, 0, 2] := by decide +kernel

end Yacl.Dpf
