import Verif.Fss.Dpf

/-! Distributed comparison function: yacl/crypto/experimental/dpf/{dcf.h, dcf.cc}. Property C46.

`SplitDcfSeed` and `DcfPRG` are arbitrary functions. -/
namespace Yacl.Dcf
open Dpf (B getVal mask reverse share share_getVal share_add share_reverse xor_cancel mod_succ)

/-! ### Model -/

/-- dcf.h L51-85 `DcfKey::CW`. -/
structure CW where
  seed : B
  v : B
  lt : Bool
  rt : Bool
deriving DecidableEq

/-- dcf.h L41-99 `DcfKey`. -/
structure Key where
  rank : Bool
  mseed : B
  cws : List CW
  last : List B
deriving DecidableEq

/-- `SplitDcfSeed`: for the left child seed, value seed and bit, then for the right child. -/
abbrev Split := B → (B × B × Bool) × (B × B × Bool)

/-- `seeds_working`, `t_working`, `v_working`. -/
structure GenState where
  p0 : B × Bool
  p1 : B × Bool
  v : B

/-- dcf.cc L82-149: one level of key generation. -/
def genStep (split : Split) (prg : B → B) (N : Nat) (beta : B) (alphaBit : Bool) (st : GenState) : CW × GenState :=
  let (s0, t0) := st.p0
  let (s1, t1) := st.p1
  let (l0, r0) := split s0
  let (l1, r1) := split s1
  let keep0 := if alphaBit then r0 else l0
  let keep1 := if alphaBit then r1 else l1
  let lose0 := if alphaBit then l0 else r0
  let lose1 := if alphaBit then l1 else r1
  let cwSeed := lose0.1 ^^^ lose1.1
  let pl0 := prg lose0.2.1
  let pl1 := prg lose1.2.1
  let pk0 := prg keep0.2.1
  let pk1 := prg keep1.2.1
  let cv := pl1 + reverse N pl0 + reverse N st.v
  let cv := if t1 then reverse N cv else cv
  let cv := if alphaBit then cv + (if t1 then reverse N beta else beta) else cv
  let v := st.v + (reverse N pk1 + pk0 + (if t1 then reverse N cv else cv))
  let cwL := l0.2.2 ^^ l1.2.2 ^^ alphaBit ^^ true
  let cwR := r0.2.2 ^^ r1.2.2 ^^ alphaBit
  let cwK := if alphaBit then cwR else cwL
  let n0 := if t0 then keep0.1 ^^^ cwSeed else keep0.1
  let n1 := if t1 then keep1.1 ^^^ cwSeed else keep1.1
  (⟨cwSeed, getVal N cv, cwL, cwR⟩, ⟨(n0, keep0.2.2 ^^ (t0 && cwK)), (n1, keep1.2.2 ^^ (t1 && cwK)), v⟩)

/-- dcf.cc L74-149: the levels for the low `n` bits of `alpha`, highest first. -/
def genLoop (split : Split) (prg : B → B) (N : Nat) (beta alpha : B) : Nat → GenState → List CW × GenState
  | 0, st => ([], st)
  | n + 1, st =>
    let r := genStep split prg N beta (alpha.getLsbD n) st
    let q := genLoop split prg N beta alpha n r.2
    (r.1 :: q.1, q.2)

/-- dcf.cc L64-181 `DcfKeyGen<M, N>`. -/
def keyGen (split : Split) (prg : B → B) (M N : Nat) (alpha beta mk0 mk1 : B) : Key × Key :=
  let (cws, st) := genLoop split prg N beta alpha M ⟨(mk0, false), (mk1, true), 0⟩
  let w := reverse N (prg st.p0.1) + prg st.p1.1 + reverse N st.v
  let w := if st.p1.2 then reverse N w else w
  (⟨false, mk0, cws, [getVal N w]⟩, ⟨true, mk1, cws, [getVal N w]⟩)

/-- dcf.cc L189-232: one level of evaluation on `(seed_working, t_working, out)`. -/
def evalStep (split : Split) (prg : B → B) (N : Nat) (rank : Bool) (cw : CW) (bit : Bool) (st : (B × Bool) × B) : (B × Bool) × B :=
  let ((s, t), out) := st
  let (l, r) := split s
  let sl := if t then l.1 ^^^ cw.seed else l.1
  let tl := l.2.2 ^^ (t && cw.lt)
  let sr := if t then r.1 ^^^ cw.seed else r.1
  let tr := r.2.2 ^^ (t && cw.rt)
  let prg0 := prg l.2.1
  let prg1 := prg r.2.1
  if bit then
    let y := if t then prg1 + cw.v else prg1
    ((sr, tr), out + (if rank then reverse N y else y))
  else
    let y := if t then prg0 + cw.v else prg0
    ((sl, tl), out + (if rank then reverse N y else y))

/-- dcf.cc L189-232: the loop of `DcfEval`; `none` for an access beyond `cws_vec`. -/
def evalLoop (split : Split) (prg : B → B) (N : Nat) (rank : Bool) (x : B) : Nat → List CW → (B × Bool) × B → Option ((B × Bool) × B)
  | 0, _, st => some st
  | _ + 1, [], _ => none
  | n + 1, cw :: cws, st => evalLoop split prg N rank x n cws (evalStep split prg N rank cw (x.getLsbD n) st)

/-- dcf.cc L183-237 `DcfEval<M, N>`. -/
def eval (split : Split) (prg : B → B) (M N : Nat) (key : Key) (x : B) : Option B :=
  match evalLoop split prg N key.rank x M key.cws ((key.mseed, key.rank), 0) with
  | none => none
  | some ((s, t), out) =>
    match key.last with
    | [] => none
    | w :: _ =>
      let y := if t then prg s + w else prg s
      some (out + (if key.rank then reverse N y else y))

/-! ### Specification -/

/-- Two shares of the comparison function: `beta` if `x < alpha` as `M`-bit numbers, 0 otherwise. -/
def LessShares (M N : Nat) (alpha beta x y0 y1 : B) : Prop :=
  share N y0 + share N y1 = if x.toNat % 2 ^ M < alpha.toNat % 2 ^ M then share N beta else 0

/-! ### Lemmas -/

theorem share_zero (N : Nat) : share N (0 : B) = 0 := by unfold share; simp

theorem share_ite (N : Nat) (c : Prop) [Decidable c] (x y : B) : share N (if c then x else y) = if c then share N x else share N y := by split <;> rfl

/-- A level with both parties in the same state. -/
theorem step_same (split : Split) (prg : B → B) (N : Nat) (hN : N ≤ 128) (cw : CW) (bit : Bool) (st : B × Bool) (o0 o1 : B) :
    (evalStep split prg N false cw bit (st, o0)).1 = (evalStep split prg N true cw bit (st, o1)).1 ∧
    share N (evalStep split prg N false cw bit (st, o0)).2 + share N (evalStep split prg N true cw bit (st, o1)).2 = share N o0 + share N o1 := by
  unfold evalStep
  simp only
  cases bit <;> simp only [Bool.false_eq_true, if_false, if_true] <;> refine ⟨trivial, ?_⟩ <;> rw [share_add N hN, share_add N hN, share_reverse N hN] <;> ring

theorem loop_same (split : Split) (prg : B → B) (N : Nat) (hN : N ≤ 128) (x : B) (n : Nat) (cws : List CW) (hl : cws.length = n) (st : B × Bool) (o0 o1 : B) :
    ∃ st' o0' o1', evalLoop split prg N false x n cws (st, o0) = some (st', o0') ∧ evalLoop split prg N true x n cws (st, o1) = some (st', o1') ∧
      share N o0' + share N o1' = share N o0 + share N o1 := by
  induction n generalizing cws st o0 o1 with
  | zero => exact ⟨st, o0, o1, by cases cws <;> rfl, by cases cws <;> rfl, rfl⟩
  | succ n ih =>
    cases cws with
    | nil => simp at hl
    | cons cw cws =>
      obtain ⟨h1, h2⟩ := step_same split prg N hN cw (x.getLsbD n) st o0 o1
      generalize ha : evalStep split prg N false cw (x.getLsbD n) (st, o0) = a at *
      generalize hb : evalStep split prg N true cw (x.getLsbD n) (st, o1) = b at *
      obtain ⟨a1, a2⟩ := a
      obtain ⟨b1, b2⟩ := b
      simp only at h1 h2
      subst h1
      obtain ⟨st', o0', o1', e1, e2, e3⟩ := ih cws (by simpa using hl) a1 a2 b2
      exact ⟨st', o0', o1', by rw [evalLoop, ha, e1], by rw [evalLoop, hb, e2], by rw [e3, h2]⟩

/-- A level on the path of `alpha`, and one leaving it. -/
theorem step_spec (split : Split) (prg : B → B) (N : Nat) (hN : N ≤ 128) (beta : B) (bit : Bool) (st : GenState) (ht : st.p0.2 ≠ st.p1.2) (o0 o1 : B)
    (ho : share N o0 + share N o1 = share N st.v) (cw : CW) (st' : GenState) (hg : genStep split prg N beta bit st = (cw, st')) :
    ((evalStep split prg N false cw bit (st.p0, o0)).1 = st'.p0 ∧ (evalStep split prg N true cw bit (st.p1, o1)).1 = st'.p1 ∧ st'.p0.2 ≠ st'.p1.2 ∧
      share N (evalStep split prg N false cw bit (st.p0, o0)).2 + share N (evalStep split prg N true cw bit (st.p1, o1)).2 = share N st'.v) ∧
    (evalStep split prg N false cw (!bit) (st.p0, o0)).1 = (evalStep split prg N true cw (!bit) (st.p1, o1)).1 ∧
    share N (evalStep split prg N false cw (!bit) (st.p0, o0)).2 + share N (evalStep split prg N true cw (!bit) (st.p1, o1)).2 = if bit then share N beta else 0 := by
  obtain ⟨⟨s0, t0⟩, ⟨s1, t1⟩, v⟩ := st
  simp only at ht ho
  unfold genStep at hg
  unfold evalStep
  simp only at hg ⊢
  generalize split s0 = q0 at *
  generalize split s1 = q1 at *
  obtain ⟨⟨a0, b0, c0⟩, ⟨d0, e0, f0⟩⟩ := q0
  obtain ⟨⟨a1, b1, c1⟩, ⟨d1, e1, f1⟩⟩ := q1
  rw [Prod.mk.injEq] at hg
  obtain ⟨rfl, rfl⟩ := hg
  cases bit <;> cases t0 <;> cases t1 <;> simp only [ne_eq, not_true_eq_false, reduceCtorEq, not_false_eq_true] at ht <;>
    simp only [Bool.false_eq_true, if_false, if_true, Bool.not_false, Bool.not_true, Bool.false_and, Bool.true_and, Prod.mk.injEq, true_and,
      share_add N hN, share_reverse N hN, share_getVal N hN]
  · refine ⟨⟨?_, ?_⟩, ⟨xor_cancel _ _, ?_⟩, ?_⟩
    · cases c0 <;> cases c1 <;> simp
    · rw [← ho]; ring
    · cases f0 <;> cases f1 <;> simp
    · rw [← ho]; ring
  · refine ⟨⟨?_, ?_⟩, ⟨?_, ?_⟩, ?_⟩
    · cases c0 <;> cases c1 <;> simp
    · rw [← ho]; ring
    · rw [BitVec.xor_comm d0 d1]; exact (xor_cancel _ _).symm
    · cases f0 <;> cases f1 <;> simp
    · rw [← ho]; ring
  · refine ⟨⟨?_, ?_⟩, ⟨xor_cancel _ _, ?_⟩, ?_⟩
    · cases f0 <;> cases f1 <;> simp
    · rw [← ho]; ring
    · cases c0 <;> cases c1 <;> simp
    · rw [← ho]; ring
  · refine ⟨⟨?_, ?_⟩, ⟨?_, ?_⟩, ?_⟩
    · cases f0 <;> cases f1 <;> simp
    · rw [← ho]; ring
    · rw [BitVec.xor_comm a0 a1]; exact (xor_cancel _ _).symm
    · cases c0 <;> cases c1 <;> simp
    · rw [← ho]; ring

theorem genLoop_length (split : Split) (prg : B → B) (N : Nat) (beta alpha : B) (n : Nat) (st : GenState) : (genLoop split prg N beta alpha n st).1.length = n := by
  induction n generalizing st with
  | zero => rfl
  | succ n ih => simp [genLoop, ih]

theorem loop_spec (split : Split) (prg : B → B) (N : Nat) (hN : N ≤ 128) (beta alpha x : B) (n : Nat) (st : GenState) (ht : st.p0.2 ≠ st.p1.2) (o0 o1 : B)
    (ho : share N o0 + share N o1 = share N st.v) (cws : List CW) (st' : GenState) (hg : genLoop split prg N beta alpha n st = (cws, st')) :
    ∃ q0 q1 r0 r1, evalLoop split prg N false x n cws (st.p0, o0) = some (q0, r0) ∧ evalLoop split prg N true x n cws (st.p1, o1) = some (q1, r1) ∧
      (x.toNat % 2 ^ n = alpha.toNat % 2 ^ n → q0 = st'.p0 ∧ q1 = st'.p1 ∧ st'.p0.2 ≠ st'.p1.2 ∧ share N r0 + share N r1 = share N st'.v) ∧
      (x.toNat % 2 ^ n ≠ alpha.toNat % 2 ^ n → q0 = q1 ∧ share N r0 + share N r1 = if x.toNat % 2 ^ n < alpha.toNat % 2 ^ n then share N beta else 0) := by
  induction n generalizing st o0 o1 cws st' with
  | zero =>
    simp only [genLoop, Prod.mk.injEq] at hg
    obtain ⟨rfl, rfl⟩ := hg
    exact ⟨st.p0, st.p1, o0, o1, rfl, rfl, fun _ => ⟨rfl, rfl, ht, ho⟩, fun h => absurd (by simp [Nat.mod_one]) h⟩
  | succ n ih =>
    have hlen := genLoop_length split prg N beta alpha (n + 1) st
    rw [hg] at hlen
    simp only [genLoop, Prod.mk.injEq] at hg
    obtain ⟨rfl, rfl⟩ := hg
    generalize hs : genStep split prg N beta (alpha.getLsbD n) st = g at *
    obtain ⟨cw, st1⟩ := g
    obtain ⟨⟨h1, h2, h3, h4⟩, h5, h6⟩ := step_spec split prg N hN beta (alpha.getLsbD n) st ht o0 o1 ho cw st1 hs
    simp only [evalLoop]
    rw [mod_succ, mod_succ]
    have hx : x.toNat.testBit n = x.getLsbD n := rfl
    have ha : alpha.toNat.testBit n = alpha.getLsbD n := rfl
    rw [hx, ha]
    have m1 := Nat.mod_lt x.toNat (Nat.two_pow_pos n)
    have m2 := Nat.mod_lt alpha.toNat (Nat.two_pow_pos n)
    by_cases hb : x.getLsbD n = alpha.getLsbD n
    · rw [hb]
      generalize evalStep split prg N false cw (alpha.getLsbD n) (st.p0, o0) = u0 at *
      generalize evalStep split prg N true cw (alpha.getLsbD n) (st.p1, o1) = u1 at *
      obtain ⟨a0, b0⟩ := u0
      obtain ⟨a1, b1⟩ := u1
      simp only at h1 h2 h4
      subst h1 h2
      obtain ⟨q0, q1, r0, r1, e1, e2, e3, e4⟩ := ih st1 h3 b0 b1 h4 _ _ rfl
      refine ⟨q0, q1, r0, r1, e1, e2, fun h => e3 (by omega), fun h => ?_⟩
      obtain ⟨e5, e6⟩ := e4 (by omega)
      refine ⟨e5, ?_⟩
      rw [e6]
      simp only [Nat.add_lt_add_iff_right]
    · have hbn : x.getLsbD n = !alpha.getLsbD n := by
        cases h1 : x.getLsbD n <;> cases h2 : alpha.getLsbD n <;> simp_all
      rw [hbn]
      generalize evalStep split prg N false cw (!alpha.getLsbD n) (st.p0, o0) = u0 at *
      generalize evalStep split prg N true cw (!alpha.getLsbD n) (st.p1, o1) = u1 at *
      obtain ⟨a0, b0⟩ := u0
      obtain ⟨a1, b1⟩ := u1
      simp only at h5 h6
      subst h5
      obtain ⟨st2, r0, r1, e1, e2, e3⟩ := loop_same split prg N hN x n _ (by simpa using hlen) a0 b0 b1
      refine ⟨st2, st2, r0, r1, e1, e2, ?_, ?_⟩
      · intro h
        cases hal : alpha.getLsbD n <;> rw [hal] at h <;> simp at h <;> omega
      · intro _
        refine ⟨rfl, ?_⟩
        rw [e3, h6]
        cases hal : alpha.getLsbD n
        · simp only [Bool.not_false, Bool.false_eq_true, if_false, if_true]
          rw [if_neg (by omega)]
        · simp only [Bool.not_true, Bool.false_eq_true, if_false, if_true]
          rw [if_pos (by omega)]

/-! ### C46 -/

/-- C46. For every domain size `M`, output size `N`, `alpha`, `beta`, master keys, generators and input `x`: both evaluations succeed and their values sum to `beta` modulo
`2^N` if `x < alpha` as `M`-bit numbers, and to zero otherwise. -/
theorem C46_comparison (split : Split) (prg : B → B) (M N : Nat) (hN : N ≤ 128) (alpha beta mk0 mk1 x : B) :
    ∃ y0 y1, eval split prg M N (keyGen split prg M N alpha beta mk0 mk1).1 x = some y0 ∧ eval split prg M N (keyGen split prg M N alpha beta mk0 mk1).2 x = some y1 ∧
      LessShares M N alpha beta x y0 y1 := by
  unfold keyGen eval
  generalize hg : genLoop split prg N beta alpha M ⟨(mk0, false), (mk1, true), 0⟩ = g
  obtain ⟨cws, st⟩ := g
  obtain ⟨q0, q1, r0, r1, e1, e2, e3, e4⟩ := loop_spec split prg N hN beta alpha x M ⟨(mk0, false), (mk1, true), 0⟩ (by simp) 0 0
    (by show share N 0 + share N 0 = share N 0; rw [share_zero]; exact BitVec.add_zero _) cws st hg
  simp only at e1 e2 ⊢
  rw [e1, e2]
  refine ⟨_, _, rfl, rfl, ?_⟩
  unfold LessShares
  simp only [Bool.false_eq_true, if_false, if_true]
  rw [share_add N hN, share_add N hN, share_reverse N hN]
  by_cases h : x.toNat % 2 ^ M = alpha.toNat % 2 ^ M
  · obtain ⟨rfl, rfl, ht, hv⟩ := e3 h
    rw [if_neg (show ¬ x.toNat % 2 ^ M < alpha.toNat % 2 ^ M by omega)]
    obtain ⟨⟨s0, t0⟩, ⟨s1, t1⟩, v⟩ := st
    simp only at ht hv ⊢
    cases t0 <;> cases t1 <;> simp only [ne_eq, not_true_eq_false, reduceCtorEq, not_false_eq_true] at ht <;>
      simp only [Bool.false_eq_true, if_false, if_true, share_add N hN, share_getVal N hN, share_reverse N hN]
    · linear_combination hv
    · linear_combination hv
  · obtain ⟨rfl, hs⟩ := e4 h
    rw [← hs]
    ring

/-- A concrete comparison function on 8 points: the values sum to 77 below 5. -/
example : let split : Split := fun s => ((s * 3 + 1, s * 11, s.getLsbD 3), (s * 5 + 2, s * 13 + 7, s.getLsbD 1))
    let k := keyGen split (· * 7) 3 64 5 77 123 456
    (List.range 8).map (fun x => (((eval split (· * 7) 3 64 k.1 (BitVec.ofNat 128 x)).getD 0 + (eval split (· * 7) 3 64 k.2 (BitVec.ofNat 128 x)).getD 0).setWidth 64).toNat) =
      [77, 77, 77, 77, 77, 0, 0, 0] := by decide +kernel

end Yacl.Dcf
