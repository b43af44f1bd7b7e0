import Verif.Fss.Dpf

/-! Puncturable pseudo-random function: yacl/crypto/experimental/dpf/{pprf.h, pprf.cc}. Property C47.

The two halves of `GgmPrg` are arbitrary functions. -/
namespace Yacl.Pprf
open Dpf (B getVal low_eq_iff)

/-! ### Model -/

/-- pprf.cc L30-40 `GgmPrg`: left and right half. -/
structure Gen where
  left : B → B
  right : B → B

/-- pprf.h L33-36 `PprfPuncKey`; the hash map as a list of pairs with distinct keys. -/
structure PuncKey where
  point : B
  seeds : List (Nat × B)
deriving DecidableEq

/-- `std::unordered_map::insert`: an existing entry stays. -/
def insert (m : List (Nat × B)) (i : Nat) (v : B) : List (Nat × B) := if (m.lookup i).isSome then m else m ++ [(i, v)]

/-- pprf.cc L53-71 `GgmExpandAndPunc` on a span of `2^n` elements at level `i`. Simplified: the span is represented by its first element; the others are written
before they are read and, apart from the first elements of the halves, not used. -/
def expandAndPunc (g : Gen) (p : B) : Nat → Nat → B → List (Nat × B) → List (Nat × B)
  | _, 0, _, m => m
  | i, n + 1, s, m =>
    if p.getLsbD i = false then insert (expandAndPunc g p (i + 1) n (g.left s) m) i (g.right s)
    else expandAndPunc g p (i + 1) n (g.right s) (insert m i (g.left s))

/-- pprf.cc L75-86 `PprfPunc<M, N>`; `none` for `M = 64`, where the allocation of `2^64 - 1` blocks throws. -/
def punc (g : Gen) (M : Nat) (key p : B) (out : PuncKey) : Option PuncKey :=
  if M < 64 then some ⟨getVal M p, expandAndPunc g p 0 M key out.seeds⟩ else none

/-- pprf.cc L98-115: the loop of `PprfPuncEval` on `(is_same, retrived, current_seed)`; `none` when `at` throws. -/
def puncLoop (g : Gen) (k : PuncKey) (x : B) : Nat → Nat → Bool × Bool × B → Option (Bool × Bool × B)
  | _, 0, st => some st
  | i, n + 1, (same, retrieved, seed) =>
    let same := same && (x.getLsbD i == k.point.getLsbD i)
    if same = false then
      if retrieved = false then
        match k.seeds.lookup i with
        | none => none
        | some s => puncLoop g k x (i + 1) n (same, true, s)
      else if x.getLsbD i = false then puncLoop g k x (i + 1) n (same, retrieved, g.left seed)
      else puncLoop g k x (i + 1) n (same, retrieved, g.right seed)
    else puncLoop g k x (i + 1) n (same, retrieved, seed)

/-- pprf.cc L88-117 `PprfPuncEval<M, N>`. -/
def puncEval (g : Gen) (M : Nat) (k : PuncKey) (x : B) : Option B :=
  if getVal M k.point ≠ getVal M x then
    match puncLoop g k x 0 M (true, false, 0) with
    | none => none
    | some (_, _, s) => some s
  else none

/-- pprf.cc L119-132 `PprfEval<M, N>`: the loop from bit `i` on. -/
def walk (g : Gen) (x : B) : Nat → Nat → B → B
  | _, 0, s => s
  | i, n + 1, s => if x.getLsbD i = false then walk g x (i + 1) n (g.left s) else walk g x (i + 1) n (g.right s)

def eval (g : Gen) (M : Nat) (key x : B) : B := walk g x 0 M key

/-! ### Lemmas -/

theorem lookup_insert (m : List (Nat × B)) (i j : Nat) (v : B) (hm : m.lookup i = none) : (insert m i v).lookup j = if j = i then some v else m.lookup j := by
  unfold insert
  rw [hm]
  simp only [Option.isSome_none, Bool.false_eq_true, if_false]
  rw [List.lookup_append]
  by_cases h : j = i
  · subst h
    simp [hm, List.lookup]
  · rw [if_neg h]
    have : (j == i) = false := by simpa using h
    simp [List.lookup, this]

/-- The sibling of the path of `p` after `i` more levels, counted from level `a`. -/
theorem expand_spec (g : Gen) (p : B) (a n : Nat) (s : B) (m : List (Nat × B)) (hm : ∀ i, a ≤ i → m.lookup i = none) :
    (∀ i, (expandAndPunc g p a n s m).lookup i = if a ≤ i ∧ i < a + n then
        some (if p.getLsbD i = false then g.right (walk g p a (i - a) s) else g.left (walk g p a (i - a) s)) else m.lookup i) ∧
    (expandAndPunc g p a n s m).length = m.length + n := by
  induction n generalizing a s m with
  | zero => exact ⟨fun i => by rw [if_neg (by omega)]; rfl, rfl⟩
  | succ n ih =>
    by_cases hp : p.getLsbD a = false
    · obtain ⟨i1, i2⟩ := ih (a + 1) (g.left s) m (fun i hi => hm i (by omega))
      simp only [expandAndPunc, hp, if_true]
      have hnone : (expandAndPunc g p (a + 1) n (g.left s) m).lookup a = none := by
        rw [i1, if_neg (by omega), hm a (by omega)]
      refine ⟨fun i => ?_, ?_⟩
      · rw [lookup_insert _ _ _ _ hnone]
        by_cases hi : i = a
        · subst hi
          rw [if_pos rfl, if_pos (by omega), if_pos hp, Nat.sub_self]
          rfl
        · rw [if_neg hi, i1]
          by_cases hr : a + 1 ≤ i ∧ i < a + 1 + n
          · rw [if_pos hr, if_pos (show a ≤ i ∧ i < a + (n + 1) by omega)]
            have hw : walk g p a (i - a) s = walk g p (a + 1) (i - (a + 1)) (g.left s) := by
              rw [show i - a = (i - (a + 1)) + 1 by omega, walk, if_pos hp]
            rw [hw]
          · rw [if_neg hr, if_neg (by omega)]
      · unfold insert
        rw [hnone]
        simp [i2]
        omega
    · have hno := hm a (Nat.le_refl a)
      obtain ⟨i1, i2⟩ := ih (a + 1) (g.right s) (insert m a (g.left s)) (fun i hi => by
        rw [lookup_insert _ _ _ _ hno, if_neg (by omega), hm i (by omega)])
      simp only [expandAndPunc, hp, Bool.true_eq_false, if_false]
      refine ⟨fun i => ?_, ?_⟩
      · rw [i1, lookup_insert _ _ _ _ hno]
        by_cases hi : i = a
        · subst hi
          rw [if_neg (by omega), if_pos rfl, if_pos (by omega), if_neg hp, Nat.sub_self]
          rfl
        · rw [if_neg hi]
          by_cases hr : a + 1 ≤ i ∧ i < a + 1 + n
          · rw [if_pos hr, if_pos (show a ≤ i ∧ i < a + (n + 1) by omega)]
            have hw : walk g p a (i - a) s = walk g p (a + 1) (i - (a + 1)) (g.right s) := by
              rw [show i - a = (i - (a + 1)) + 1 by omega, walk, if_neg hp]
            rw [hw]
          · rw [if_neg hr, if_neg (by omega)]
      · rw [i2]
        unfold insert
        rw [hno]
        simp
        omega

/-- After the paths have parted the loop continues the plain evaluation. -/
theorem puncLoop_after (g : Gen) (k : PuncKey) (x : B) (i n : Nat) (s : B) : puncLoop g k x i n (false, true, s) = some (false, true, walk g x i n s) := by
  induction n generalizing i s with
  | zero => rfl
  | succ n ih =>
    simp only [puncLoop, Bool.false_and, if_true, Bool.true_eq_false, if_false, walk]
    split
    · exact ih _ _
    · exact ih _ _

theorem puncLoop_spec (g : Gen) (k : PuncKey) (x : B) (M : Nat) (key : B) (hseeds : ∀ i < M, k.seeds.lookup i = some (if k.point.getLsbD i = false then g.right (walk g k.point 0 i key) else g.left (walk g k.point 0 i key)))
    (i n : Nat) (hn : i + n = M) (hsame : ∀ j < i, x.getLsbD j = k.point.getLsbD j) (hdiff : ∃ j, j < M ∧ x.getLsbD j ≠ k.point.getLsbD j) :
    ∃ q, puncLoop g k x i n (true, false, 0) = some (false, true, q) ∧ q = walk g x i n (walk g x 0 i key) := by
  induction n generalizing i with
  | zero =>
    obtain ⟨j, h1, h2⟩ := hdiff
    exact absurd (hsame j (by omega)) h2
  | succ n ih =>
    have hprefix : ∀ (a m : Nat) (s : B), a + m ≤ i → walk g x a m s = walk g k.point a m s := by
      intro a m
      induction m generalizing a with
      | zero => intro s _; rfl
      | succ m ihm =>
        intro s ha
        simp only [walk]
        rw [hsame a (by omega)]
        split
        · exact ihm _ _ (by omega)
        · exact ihm _ _ (by omega)
    have hsnoc : ∀ (a m : Nat) (s : B), walk g x a (m + 1) s = if x.getLsbD (a + m) = false then g.left (walk g x a m s) else g.right (walk g x a m s) := by
      intro a m
      induction m generalizing a with
      | zero => intro s; simp [walk]
      | succ m ihm =>
        intro s
        rw [walk]
        by_cases hb : x.getLsbD a = false
        · rw [if_pos hb, ihm, show a + 1 + m = a + (m + 1) by omega]
          simp only [walk, hb, if_true]
        · rw [if_neg hb, ihm, show a + 1 + m = a + (m + 1) by omega]
          simp only [walk, hb, Bool.true_eq_false, if_false]
    simp only [puncLoop, Bool.true_and]
    by_cases hb : x.getLsbD i = k.point.getLsbD i
    · rw [hb]
      simp only [BEq.rfl, Bool.true_eq_false, if_false]
      obtain ⟨q, e1, e2⟩ := ih (i + 1) (by omega) (fun j hj => by
        rcases Nat.lt_succ_iff_lt_or_eq.mp hj with h | rfl
        · exact hsame j h
        · exact hb)
      refine ⟨q, e1, ?_⟩
      rw [e2, hsnoc, Nat.zero_add, walk]
      split <;> rfl
    · have hbf : (x.getLsbD i == k.point.getLsbD i) = false := by simpa using hb
      simp only [hbf, if_true, hseeds i (by omega)]
      rw [puncLoop_after]
      refine ⟨_, rfl, ?_⟩
      rw [walk, ← hprefix 0 i key (by omega)]
      cases hx : x.getLsbD i <;> cases hk : k.point.getLsbD i <;> simp_all

/-! ### C47 -/

/-- C47, in part (fresh key objects, `M < 64`). For every key, punctured point and domain of `M < 64` bits, puncturing into a fresh key object succeeds; at every other point (of `M` bits) the punctured evaluation
equals the evaluation with the full key, and at the punctured point it is refused. -/
theorem C47_punctured_partial (g : Gen) (M : Nat) (hM : M < 64) (key p : B) :
    ∃ k, punc g M key p ⟨0, []⟩ = some k ∧ ∀ x : B, (x.setWidth M ≠ p.setWidth M → puncEval g M k x = some (eval g M key x)) ∧
      (x.setWidth M = p.setWidth M → puncEval g M k x = none) := by
  unfold punc
  rw [if_pos hM]
  refine ⟨_, rfl, fun x => ?_⟩
  have hpt : ∀ j < M, (getVal M p).getLsbD j = p.getLsbD j := by
    intro j hj
    unfold getVal
    rw [BitVec.getLsbD_setWidth, BitVec.getLsbD_setWidth]
    simp [hj, show j < 128 by omega]
  have hset : (getVal M p).setWidth M = p.setWidth M := by
    rw [low_eq_iff M (by omega)]
    intro j _ hj
    exact hpt j (by omega)
  have hval : ∀ y z : B, getVal M y = getVal M z ↔ y.setWidth M = z.setWidth M := by
    intro y z
    unfold getVal
    constructor
    · intro h
      have := congrArg (·.setWidth M) h
      simp only [BitVec.setWidth_setWidth_of_le _ (show M ≤ 128 by omega), BitVec.setWidth_eq] at this
      exact this
    · intro h
      rw [h]
  unfold puncEval
  constructor
  · intro hx
    rw [if_pos (fun h => hx (by rw [hval, hset] at h; exact h.symm))]
    obtain ⟨h1, h2⟩ := expand_spec g p 0 M key [] (fun _ _ => rfl)
    have hdiff : ∃ j, j < M ∧ x.getLsbD j ≠ (getVal M p).getLsbD j := by
      by_contra hc
      apply hx
      rw [low_eq_iff M (by omega)]
      intro j _ hj
      by_contra hne
      exact hc ⟨j, by omega, by rw [hpt j (by omega)]; exact hne⟩
    have hwalk : ∀ (a m : Nat) (s : B), a + m ≤ M → walk g (getVal M p) a m s = walk g p a m s := by
      intro a m
      induction m generalizing a with
      | zero => intro s _; rfl
      | succ m ihm =>
        intro s ha
        simp only [walk]
        rw [hpt a (by omega)]
        split
        · exact ihm _ _ (by omega)
        · exact ihm _ _ (by omega)
    obtain ⟨q, e1, e2⟩ := puncLoop_spec g ⟨getVal M p, expandAndPunc g p 0 M key []⟩ x M key (fun i hi => by
      simp only
      rw [h1, if_pos (by omega), Nat.sub_zero, hpt i hi, hwalk 0 i key (by omega)]) 0 M (by omega) (fun j hj => by omega) hdiff
    simp only [e1, e2]
    rfl
  · intro hx
    rw [if_neg]
    simp only [ne_eq, not_not]
    rw [hval, hset, hx]

/-- C47, contents. The punctured key holds the point and exactly one seed for each level `i`: the node that leaves the path to `p` at bit `i`. No seed is on the path. -/
theorem C47_contents (g : Gen) (M : Nat) (hM : M < 64) (key p : B) :
    ∃ k, punc g M key p ⟨0, []⟩ = some k ∧ k.point.toNat = p.toNat % 2 ^ M ∧ k.seeds.length = M ∧
      ∀ i < M, k.seeds.lookup i = some (walk g (p ^^^ (1 : B) <<< i) 0 (i + 1) key) := by
  unfold punc
  rw [if_pos hM]
  obtain ⟨h1, h2⟩ := expand_spec g p 0 M key [] (fun _ _ => rfl)
  refine ⟨_, rfl, ?_, by simpa using h2, fun i hi => ?_⟩
  · unfold getVal
    rw [BitVec.toNat_setWidth, BitVec.toNat_setWidth]
    exact Nat.mod_eq_of_lt (Nat.lt_of_lt_of_le (Nat.mod_lt _ (Nat.two_pow_pos M)) (Nat.pow_le_pow_right (by omega) (by omega)))
  · simp only
    rw [h1, if_pos (by omega), Nat.sub_zero]
    have hbit : ∀ j < 128, (p ^^^ (1 : B) <<< i).getLsbD j = (p.getLsbD j ^^ decide (j = i)) := by
      intro j hj
      rw [BitVec.getLsbD_xor, BitVec.getLsbD_shiftLeft]
      congr 1
      by_cases h : j < i
      · have : j ≠ i := by omega
        simp [h, this]
      · have : (1 : B).getLsbD (j - i) = decide (j - i = 0) := by
          show (BitVec.ofNat 128 1).getLsbD (j - i) = _
          rw [BitVec.getLsbD_ofNat]
          cases hk : j - i with
          | zero => simp
          | succ k => rw [Nat.testBit_succ]; simp
        rw [this]
        by_cases h2 : j = i
        · subst h2
          simp [hj]
        · have : j - i ≠ 0 := by omega
          simp [h2, this]
    have key1 : ∀ (a m : Nat) (s : B), a + m = i → walk g (p ^^^ (1 : B) <<< i) a (m + 1) s = if p.getLsbD i = false then g.right (walk g p a m s) else g.left (walk g p a m s) := by
      intro a m
      induction m generalizing a with
      | zero =>
        intro s ha
        have : a = i := by omega
        subst this
        simp only [walk, hbit a (by omega), decide_true]
        cases p.getLsbD a <;> simp
      | succ m ihm =>
        intro s ha
        rw [walk, hbit a (by omega)]
        have : a ≠ i := by omega
        simp only [this, decide_false, Bool.xor_false]
        by_cases hb : p.getLsbD a = false
        · rw [if_pos hb, ihm (a + 1) _ (by omega)]
          simp only [walk, hb, if_true]
        · rw [if_neg hb, ihm (a + 1) _ (by omega)]
          simp only [walk, hb, Bool.true_eq_false, if_false]
    rw [key1 0 i key (by omega)]

/-- The code does not keep C47 when the key object has been used before: `insert` keeps the old seeds, while the point is replaced. -/
theorem C47_reuse_violated : ∃ (g : Gen) (key0 key p x : B) (k0 k : PuncKey), punc g 2 key0 p ⟨0, []⟩ = some k0 ∧ punc g 2 key p k0 = some k ∧ x.setWidth 2 ≠ p.setWidth 2 ∧
    puncEval g 2 k x ≠ some (eval g 2 key x) :=
  ⟨⟨(· * 3), (· * 5 + 1)⟩, 7, 11, 2, 1, _, _, by unfold punc; rw [if_pos (by decide)], by unfold punc; rw [if_pos (by decide)], by decide +kernel, by decide +kernel⟩

/-- A concrete case: 3 bits, punctured at 5. -/
example : let g : Gen := ⟨(· * 3), (· * 5 + 1)⟩
    (punc g 3 7 5 ⟨0, []⟩).map (fun k => (List.range 8).map fun x => puncEval g 3 k (BitVec.ofNat 128 x)) =
      some ((List.range 8).map fun x => if x = 5 then none else some (eval g 3 7 (BitVec.ofNat 128 x))) := by decide +kernel

end Yacl.Pprf
