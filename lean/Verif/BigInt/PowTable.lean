import Mathlib.Data.Nat.Digits.Defs
import Mathlib.Data.Nat.Digits.Lemmas
import Mathlib.Data.Nat.Bitwise
import Mathlib.Data.Nat.Size
import Mathlib.Algebra.Group.Basic
import Mathlib.Tactic.SplitIfs
import Mathlib.Tactic.Ring

/-! Fixed-base exponentiation with a table of powers: yacl/math/bigint/mont_space.{h,cc}. Property C109, the part that does not depend on the arithmetic library. -/
namespace Yacl.BigInt

/-- Outcome of a call: a value, an exception, or undefined behaviour (reading outside a vector, shift by too many bits). -/
inductive Out (α : Type) where
  | ok (a : α)
  | throws
  | ub

/-- The operations a Montgomery space offers (mont_space.h L38-53). `neg` is `IsNegative` of the number. -/
structure Space (α : Type) where
  one : α
  into : α → α
  mul : α → α → α
  neg : α → Bool

/-- mont_space.h L22-32 `BaseTable`. -/
structure Table (α : Type) where
  unit : Nat
  expand : Nat
  mask : Nat
  maxBits : Nat
  stair : List α

variable {α : Type}

/-- mont_space.cc L72-75: the inner loop, `k` rounds left. -/
def tableInner (S : Space α) (lvl : α) : Nat → α → List α → α × List α
  | 0, now, out => (now, out)
  | k + 1, now, out => tableInner S lvl k (S.mul now lvl) (out ++ [now])

/-- mont_space.cc L70-76: the outer loop, `k` rounds left. -/
def tableOuter (S : Space α) (expand : Nat) : Nat → α → List α → List α
  | 0, _, out => out
  | k + 1, now, out =>
    let r := tableInner S now (expand - 1) now out
    tableOuter S expand k r.1 r.2

/-- mont_space.cc L40-77 `MakeBaseTable`. `1U << unit_bits` is undefined for 32 bits and more. -/
def makeTable (S : Space α) (base : α) (unit max : Nat) : Out (Table α) :=
  if S.neg base then .throws
  else if unit = 0 then .throws
  else if 32 ≤ unit then .ub
  else
    let expand := 2 ^ unit
    let stairs := (max + unit - 1) / unit
    .ok ⟨unit, expand, expand - 1, stairs * unit, tableOuter S expand stairs (S.into base) []⟩

/-- mont_space.cc L106-108, L116-118, L131-133: multiply with the table entry of one digit, if it is not zero. `none` is a read outside the table. -/
def useDigit (S : Space α) (T : Table α) (r : α) (level d : Nat) : Option α :=
  if 0 < d then (T.stair[level + d - 1]?).map (S.mul r) else some r

/-- mont_space.cc L113-122: the digits inside one word; `wb` is the number of bits of a word. The state is `r`, `level`, `word`, `unit_start_bits`. -/
def wordLoop (S : Space α) (T : Table α) (wb : Nat) (r : α) (level word start : Nat) : Option (α × Nat × Nat × Nat) :=
  if T.unit = 0 then none
  else if start ≤ wb - T.unit ∧ start ≤ wb then
    match useDigit S T r level (word &&& T.mask) with
    | none => none
    | some r' => wordLoop S T wb r' (level + (T.expand - 1)) (word >>> T.unit) (start + T.unit)
  else some (r, level, word, start)
termination_by wb + 1 - start
decreasing_by omega

/-- mont_space.cc L98-128: the loop over the words. The state is `r`, `level`, `e_unit`, `unit_start_bits`. The left shift works on 64-bit words. -/
def wordsLoop (S : Space α) (T : Table α) (wb : Nat) : List Nat → α → Nat → Nat → Nat → Option (α × Nat × Nat × Nat)
  | [], r, level, eu, start => some (r, level, eu, start)
  | w :: ws, r, level, eu, start =>
    let drop := T.unit - start
    let head : Option (α × Nat × Nat) :=
      if 0 < start then
        (useDigit S T r level (eu ||| ((w <<< drop) % 2 ^ 64 &&& T.mask))).map fun r' => (r', level + (T.expand - 1), w >>> start)
      else some (r, level, w)
    match head with
    | none => none
    | some (r1, level1, w1) =>
      match wordLoop S T wb r1 level1 w1 start with
      | none => none
      | some (r2, level2, w2, start2) => wordsLoop S T wb ws r2 level2 w2 (if start2 = wb then 0 else start2 + T.unit - wb)

/-- mont_space.cc L79-136 `PowMod`: `e` is the exponent and `words` what `GetWords` returns for it. `wb - exp_unit_bits` wraps around if the unit is longer than a word. -/
def powMod (S : Space α) (wb : Nat) (T : Table α) (e : Int) (words : List Nat) : Out α :=
  if e < 0 ∨ T.maxBits < e.natAbs.size then .throws
  else if wb < T.unit then .ub
  else
    match wordsLoop S T wb words S.one 0 0 0 with
    | none => .ub
    | some (r, level, eu, start) =>
      if 0 < start ∧ 0 < eu then
        match T.stair[level + eu - 1]? with
        | none => .ub
        | some x => .ok (S.mul r x)
      else .ok r

/-- tommath/mont_space.cc L58-64 and gmp/mont_space.cc L58-66 `GetWords`: the digits of the number in base `2^wb`. -/
def getWords (wb e : Nat) : List Nat := Nat.digits (2 ^ wb) e

/-- openssl/mont_space.cc L61-76 `GetWords`: the little-endian bytes, padded to whole words of eight bytes. -/
def getWordsOpenssl (e : Nat) : List Nat := (List.range (((e.size + 7) / 8 + 7) / 8)).map fun i => e / 2 ^ (64 * i) % 2 ^ 64

/-! ### Specification -/

/-- What is asked of the arithmetic: numbers stand for elements `val` of a commutative monoid, among the numbers that satisfy `ok`. -/
structure Space.Law {M : Type} [CommMonoid M] (S : Space α) (ok : α → Prop) (val : α → M) : Prop where
  one_ok : ok S.one
  one_val : val S.one = 1
  mul_ok : ∀ a b, ok a → ok b → ok (S.mul a b)
  mul_val : ∀ a b, ok a → ok b → val (S.mul a b) = val a * val b

/-! ### The table -/

variable {M : Type} [CommMonoid M]

theorem tableInner_spec {S : Space α} {okp : α → Prop} {val : α → M} (L : S.Law okp val) (lvl : α) (hl : okp lvl) (k : Nat) (now : α) (hn : okp now) (out : List α) :
    ∃ l, (tableInner S lvl k now out).2 = out ++ l ∧ l.length = k ∧ okp (tableInner S lvl k now out).1 ∧
      val (tableInner S lvl k now out).1 = val now * val lvl ^ k ∧
      ∀ j < k, ∃ a, l[j]? = some a ∧ okp a ∧ val a = val now * val lvl ^ j := by
  induction k generalizing now out with
  | zero => exact ⟨[], by simp [tableInner], rfl, by simpa [tableInner] using hn, by simp [tableInner], by simp⟩
  | succ k ih =>
    obtain ⟨l, h1, h2, h3, h4, h5⟩ := ih (S.mul now lvl) (L.mul_ok _ _ hn hl) (out ++ [now])
    refine ⟨now :: l, ?_, by simp [h2], h3, ?_, ?_⟩
    · simp only [tableInner]; rw [h1]; simp
    · simp only [tableInner]; rw [h4, L.mul_val _ _ hn hl, mul_assoc, pow_succ']
    · intro j hj
      cases j with
      | zero => exact ⟨now, rfl, hn, by simp⟩
      | succ j =>
        obtain ⟨a, ha, ho, hv⟩ := h5 j (by omega)
        refine ⟨a, by simpa using ha, ho, ?_⟩
        rw [hv, L.mul_val _ _ hn hl, mul_assoc, pow_succ']

theorem tableOuter_spec {S : Space α} {okp : α → Prop} {val : α → M} (L : S.Law okp val) (E : Nat) (hE : 0 < E) (k : Nat) (now : α) (hn : okp now) (out : List α) :
    ∃ l, tableOuter S E k now out = out ++ l ∧ l.length = k * (E - 1) ∧
      ∀ i < k, ∀ d, 0 < d → d < E → ∃ a, l[i * (E - 1) + d - 1]? = some a ∧ okp a ∧ val a = val now ^ (d * E ^ i) := by
  induction k generalizing now out with
  | zero => exact ⟨[], by simp [tableOuter], by simp, by simp⟩
  | succ k ih =>
    obtain ⟨l, h1, h2, h3, h4, h5⟩ := tableInner_spec L now hn (E - 1) now hn out
    obtain ⟨l', g1, g2, g3⟩ := ih _ h3 (tableInner S now (E - 1) now out).2
    refine ⟨l ++ l', ?_, ?_, ?_⟩
    · simp only [tableOuter]; rw [g1, h1, List.append_assoc]
    · rw [List.length_append, h2, g2]; ring
    · intro i hi d hd hdE
      cases i with
      | zero =>
        obtain ⟨a, ha, ho, hv⟩ := h5 (d - 1) (by omega)
        refine ⟨a, ?_, ho, ?_⟩
        · rw [List.getElem?_append_left (by rw [h2]; omega)]
          have : 0 * (E - 1) + d - 1 = d - 1 := by omega
          rw [this]; exact ha
        · rw [hv, ← pow_succ']; congr 1; simp; omega
      | succ i =>
        obtain ⟨a, ha, ho, hv⟩ := g3 i (by omega) d hd hdE
        refine ⟨a, ?_, ho, ?_⟩
        · have e : (i + 1) * (E - 1) + d - 1 = l.length + (i * (E - 1) + d - 1) := by
            rw [h2, Nat.succ_mul]; omega
          rw [e, List.getElem?_append_right (by omega), Nat.add_sub_cancel_left]
          exact ha
        · rw [hv, h4, ← pow_succ', Nat.sub_add_cancel hE, ← pow_mul]
          congr 1
          rw [pow_succ']; ring

/-- A table of powers of `g` with digits of `u` bits. -/
structure GoodTable (S : Space α) (okp : α → Prop) (val : α → M) (g : M) (T : Table α) (u n : Nat) : Prop where
  u_pos : 0 < u
  unit : T.unit = u
  expand : T.expand = 2 ^ u
  mask : T.mask = 2 ^ u - 1
  maxBits : T.maxBits = n * u
  entry : ∀ i < n, ∀ d, 0 < d → d < 2 ^ u → ∃ a, T.stair[i * (2 ^ u - 1) + d - 1]? = some a ∧ okp a ∧ val a = g ^ (d * 2 ^ (u * i))

theorem makeTable_good {S : Space α} {okp : α → Prop} {val : α → M} (L : S.Law okp val) (base : α) (hb : okp (S.into base)) (unit max : Nat) (T : Table α)
    (h : makeTable S base unit max = .ok T) : GoodTable S okp val (val (S.into base)) T unit ((max + unit - 1) / unit) := by
  unfold makeTable at h
  split_ifs at h with h1 h2 h3
  simp only [Out.ok.injEq] at h
  subst h
  refine ⟨by omega, rfl, rfl, rfl, rfl, ?_⟩
  intro i hi d hd hdE
  obtain ⟨l, g1, g2, g3⟩ := tableOuter_spec L (2 ^ unit) (Nat.two_pow_pos _) ((max + unit - 1) / unit) (S.into base) hb []
  obtain ⟨a, ha, ho, hv⟩ := g3 i hi d hd hdE
  refine ⟨a, ?_, ho, ?_⟩
  · simp only; rw [g1, List.nil_append]; exact ha
  · rw [hv, pow_mul 2 unit i]

/-! ### Exponentiation -/

section pow
variable {S : Space α} {okp : α → Prop} {val : α → M} (L : S.Law okp val) {g : M} {T : Table α} {u n : Nat} (hT : GoodTable S okp val g T u n)
include L hT

theorem useDigit_spec (r : α) (hr : okp r) (i d : Nat) (hd : d < 2 ^ u) (hi : 0 < d → i < n) :
    ∃ r', useDigit S T r (i * (2 ^ u - 1)) d = some r' ∧ okp r' ∧ val r' = val r * g ^ (d * 2 ^ (u * i)) := by
  unfold useDigit
  split_ifs with h0
  · obtain ⟨a, ha, ho, hv⟩ := hT.entry i (hi h0) d h0 hd
    refine ⟨S.mul r a, ?_, L.mul_ok _ _ hr ho, ?_⟩
    · rw [ha]; rfl
    · rw [L.mul_val _ _ hr ho, hv]
  · refine ⟨r, rfl, hr, ?_⟩
    have : d = 0 := by omega
    simp [this]

omit L hT in
theorem digit_bound {e u i n : Nat} (he : e < 2 ^ (n * u)) (h : 0 < e / 2 ^ (u * i) % 2 ^ u) : i < n := by
  by_contra hc
  have : e / 2 ^ (u * i) = 0 := by
    apply Nat.div_eq_of_lt
    apply lt_of_lt_of_le he
    apply Nat.pow_le_pow_right (by omega)
    rw [Nat.mul_comm n u]
    exact Nat.mul_le_mul_left _ (by omega)
  rw [this] at h
  simp at h

omit L hT in
theorem mod_succ_digit (e u i : Nat) : e % 2 ^ (u * (i + 1)) = e % 2 ^ (u * i) + e / 2 ^ (u * i) % 2 ^ u * 2 ^ (u * i) := by
  rw [Nat.mul_succ, Nat.pow_add, Nat.mod_mul]; ring

theorem wordLoop_spec (wb : Nat) (hwb : u ≤ wb) (e : Nat) (he : e < 2 ^ (n * u)) (i0 w : Nat) (hw : w = e / 2 ^ (wb * i0) % 2 ^ wb) (r : α) (hr : okp r) (lv start : Nat) (hs : start ≤ wb)
    (hpos : u * lv = wb * i0 + start) (hv : val r = g ^ (e % 2 ^ (u * lv))) :
    ∃ r' lv' start', wordLoop S T wb r (lv * (2 ^ u - 1)) (w >>> start) start = some (r', lv' * (2 ^ u - 1), w >>> start', start') ∧
      okp r' ∧ start' ≤ wb ∧ wb < start' + u ∧ u * lv' = wb * i0 + start' ∧ val r' = g ^ (e % 2 ^ (u * lv')) := by
  induction hk : wb + 1 - start using Nat.strong_induction_on generalizing r lv start with
  | _ k ih =>
    have hu := hT.u_pos
    rw [wordLoop, hT.unit, hT.mask, hT.expand, if_neg (by omega)]
    by_cases hc : start ≤ wb - u
    · rw [if_pos ⟨hc, hs⟩]
      have hdig : (w >>> start) &&& (2 ^ u - 1) = e / 2 ^ (u * lv) % 2 ^ u := by
        rw [Nat.and_two_pow_sub_one_eq_mod, Nat.shiftRight_eq_div_pow, hw, hpos, Nat.pow_add, ← Nat.div_div_eq_div_mul]
        have : 2 ^ wb = 2 ^ start * 2 ^ (wb - start) := by rw [← Nat.pow_add]; congr 1; omega
        rw [this, Nat.mod_mul_right_div_self, Nat.mod_mod_of_dvd]
        exact Nat.pow_dvd_pow 2 (by omega)
      rw [hdig]
      obtain ⟨r', h1, h2, h3⟩ := useDigit_spec L hT r hr lv (e / 2 ^ (u * lv) % 2 ^ u) (Nat.mod_lt _ (Nat.two_pow_pos _)) (fun h => digit_bound he h)
      rw [h1]
      simp only
      have hlv : lv * (2 ^ u - 1) + (2 ^ u - 1) = (lv + 1) * (2 ^ u - 1) := by ring
      have hsh : w >>> start >>> u = w >>> (start + u) := by rw [Nat.shiftRight_add]
      rw [hlv, hsh]
      refine ih (wb + 1 - (start + u)) (by omega) r' h2 (lv + 1) (start + u) (by omega) ?_ ?_ rfl
      · rw [Nat.mul_succ, hpos]; omega
      · rw [h3, hv, ← pow_add, mod_succ_digit]
    · rw [if_neg (by omega)]
      exact ⟨r, lv, start, rfl, hr, hs, by omega, hpos, hv⟩

/-- What holds between two words. -/
structure Between (g : M) (u wb e i : Nat) (okp : α → Prop) (val : α → M) (r : α) (lv eu start : Nat) : Prop where
  r_ok : okp r
  r_val : val r = g ^ (e % 2 ^ (u * lv))
  start_lt : start < u
  zero : start = 0 → u * lv = wb * i
  pos : 0 < start → u * lv + (u - start) = wb * i ∧ eu = e / 2 ^ (u * lv) % 2 ^ (u - start)

theorem wordsLoop_spec (wb : Nat) (hwb : u ≤ wb) (hw64 : wb ≤ 64) (hu64 : u ≤ 64) (e : Nat) (he : e < 2 ^ (n * u)) (ws : List Nat) (hws : ∀ w ∈ ws, w < 2 ^ wb) (i : Nat)
    (hval : e / 2 ^ (wb * i) = Nat.ofDigits (2 ^ wb) ws) (r : α) (lv eu start : Nat) (hB : Between g u wb e i okp val r lv eu start) :
    ∃ r' lv' eu' start', wordsLoop S T wb ws r (lv * (2 ^ u - 1)) eu start = some (r', lv' * (2 ^ u - 1), eu', start') ∧
      Between g u wb e (i + ws.length) okp val r' lv' eu' start' := by
  induction ws generalizing i r lv eu start with
  | nil => exact ⟨r, lv, eu, start, rfl, hB⟩
  | cons w ws ih =>
    have hu := hT.u_pos
    have hwlt := hws w List.mem_cons_self
    rw [Nat.ofDigits_cons] at hval
    have hw : w = e / 2 ^ (wb * i) % 2 ^ wb := by
      rw [hval, Nat.add_mul_mod_self_left, Nat.mod_eq_of_lt hwlt]
    have hnext : e / 2 ^ (wb * (i + 1)) = Nat.ofDigits (2 ^ wb) ws := by
      rw [Nat.mul_succ, Nat.pow_add, ← Nat.div_div_eq_div_mul, hval, Nat.add_mul_div_left _ _ (Nat.two_pow_pos _), Nat.div_eq_of_lt hwlt, Nat.zero_add]
    -- the unit that crosses the word boundary
    have hhead : ∃ r1 lv1, (if 0 < start then
          (useDigit S T r (lv * (2 ^ u - 1)) (eu ||| ((w <<< (T.unit - start)) % 2 ^ 64 &&& T.mask))).map fun r' => (r', lv * (2 ^ u - 1) + (T.expand - 1), w >>> start)
        else some (r, lv * (2 ^ u - 1), w)) = some (r1, lv1 * (2 ^ u - 1), w >>> start) ∧ okp r1 ∧ val r1 = g ^ (e % 2 ^ (u * lv1)) ∧ u * lv1 = wb * i + start := by
      by_cases h0 : 0 < start
      · rw [if_pos h0, hT.unit, hT.mask, hT.expand]
        obtain ⟨hp, heu⟩ := hB.pos h0
        have hsl := hB.start_lt
        have hd : eu ||| ((w <<< (u - start)) % 2 ^ 64 &&& (2 ^ u - 1)) = e / 2 ^ (u * lv) % 2 ^ u := by
          rw [Nat.and_two_pow_sub_one_eq_mod, Nat.mod_mod_of_dvd _ (Nat.pow_dvd_pow 2 hu64), Nat.shiftLeft_eq]
          have e1 : 2 ^ u = 2 ^ (u - start) * 2 ^ start := by rw [← Nat.pow_add]; congr 1; omega
          rw [e1, Nat.mul_comm w, Nat.mul_mod_mul_left, Nat.mod_mul]
          have hlt : eu < 2 ^ (u - start) := by rw [heu]; exact Nat.mod_lt _ (Nat.two_pow_pos _)
          rw [Nat.or_comm, ← Nat.two_pow_add_eq_or_of_lt hlt, ← heu, Nat.add_comm]
          congr 2
          rw [Nat.div_div_eq_div_mul, ← Nat.pow_add, hp, hw, Nat.mod_mod_of_dvd _ (Nat.pow_dvd_pow 2 (by omega))]
        rw [hd]
        obtain ⟨r', h1, h2, h3⟩ := useDigit_spec L hT r hB.r_ok lv (e / 2 ^ (u * lv) % 2 ^ u) (Nat.mod_lt _ (Nat.two_pow_pos _)) (fun h => digit_bound he h)
        refine ⟨r', lv + 1, ?_, h2, ?_, ?_⟩
        · rw [h1]
          simp only [Option.map_some, Option.some.injEq, Prod.mk.injEq, true_and, and_true]
          ring
        · rw [h3, hB.r_val, ← pow_add, mod_succ_digit]
        · rw [Nat.mul_succ]; omega
      · rw [if_neg h0]
        have h0' : start = 0 := by omega
        exact ⟨r, lv, by rw [h0']; rfl, hB.r_ok, hB.r_val, by rw [hB.zero h0', h0', Nat.add_zero]⟩
    obtain ⟨r1, lv1, e1, ok1, v1, p1⟩ := hhead
    obtain ⟨r2, lv2, s2, e2, ok2, hs2, hs2', p2, v2⟩ := wordLoop_spec L hT wb hwb e he i w hw r1 ok1 lv1 start (by have := hB.start_lt; omega) p1 v1
    have hB' : Between g u wb e (i + 1) okp val r2 lv2 (w >>> s2) (if s2 = wb then 0 else s2 + T.unit - wb) := by
      rw [hT.unit]
      refine ⟨ok2, v2, ?_, ?_, ?_⟩
      · split_ifs <;> omega
      · intro h
        split_ifs at h with hc
        · rw [p2, hc, Nat.mul_succ]
        · omega
      · intro h
        split_ifs at h with hc
        · omega
        · rw [if_neg hc]
          have e3 : u - (s2 + u - wb) = wb - s2 := by omega
          rw [e3]
          refine ⟨by rw [p2, Nat.mul_succ]; omega, ?_⟩
          rw [p2, Nat.pow_add, ← Nat.div_div_eq_div_mul, Nat.shiftRight_eq_div_pow, hw]
          have : 2 ^ wb = 2 ^ s2 * 2 ^ (wb - s2) := by rw [← Nat.pow_add]; congr 1; omega
          rw [this, Nat.mod_mul_right_div_self]
    obtain ⟨r', lv', eu', st', e4, hB4⟩ := ih (fun x hx => hws x (List.mem_cons_of_mem _ hx)) (i + 1) hnext r2 lv2 (w >>> s2) _ hB'
    refine ⟨r', lv', eu', st', ?_, ?_⟩
    · simp only [wordsLoop]
      rw [e1]
      simp only
      rw [e2]
      exact e4
    · rw [List.length_cons]
      have : i + (ws.length + 1) = i + 1 + ws.length := by omega
      rw [this]; exact hB4

theorem powMod_spec (wb : Nat) (hwb : u ≤ wb) (hw64 : wb ≤ 64) (e : Int) (h0 : 0 ≤ e) (hsz : e.natAbs.size ≤ n * u) (ws : List Nat) (hws : ∀ w ∈ ws, w < 2 ^ wb)
    (hval : Nat.ofDigits (2 ^ wb) ws = e.natAbs) :
    ∃ r, powMod S wb T e ws = .ok r ∧ okp r ∧ val r = g ^ e.natAbs := by
  have hu := hT.u_pos
  set N := e.natAbs with hN
  have he : N < 2 ^ (n * u) := Nat.size_le.mp hsz
  have hB0 : Between g u wb N 0 okp val S.one 0 0 0 := by
    refine ⟨L.one_ok, ?_, hu, fun _ => by simp, fun h => absurd h (by omega)⟩
    rw [L.one_val]; simp [Nat.mod_one]
  obtain ⟨r, lv, eu, st, h1, hB⟩ := wordsLoop_spec L hT wb hwb hw64 (by omega) N he ws hws 0 (by simpa using hval.symm) S.one 0 0 0 hB0
  have hlt : N < 2 ^ (wb * ws.length) := by
    rw [← hval, pow_mul]
    exact Nat.ofDigits_lt_base_pow_length' (b := 2 ^ wb - 2) (l := ws) (by
      intro x hx
      have := hws x hx
      have h2 : 2 ≤ 2 ^ wb := by
        calc 2 = 2 ^ 1 := rfl
          _ ≤ 2 ^ wb := Nat.pow_le_pow_right (by omega) (by omega)
      omega) |> fun h => by
        have h2 : 2 ≤ 2 ^ wb := by
          calc 2 = 2 ^ 1 := rfl
            _ ≤ 2 ^ wb := Nat.pow_le_pow_right (by omega) (by omega)
        have h3 : 2 ^ wb - 2 + 2 = 2 ^ wb := by omega
        rw [h3] at h; exact h
  rw [Nat.zero_add] at hB
  unfold powMod
  rw [hT.maxBits, if_neg (by push Not; exact ⟨h0, hsz⟩), hT.unit, if_neg (by omega)]
  have h1' : wordsLoop S T wb ws S.one 0 0 0 = some (r, lv * (2 ^ u - 1), eu, st) := by simpa using h1
  rw [h1']
  simp only
  by_cases hs : 0 < st
  · obtain ⟨hp, heu⟩ := hB.pos hs
    have hdig : eu = N / 2 ^ (u * lv) := by
      rw [heu]
      apply Nat.mod_eq_of_lt
      rw [Nat.div_lt_iff_lt_mul (Nat.two_pow_pos _), ← Nat.pow_add, Nat.add_comm, hp]
      exact hlt
    by_cases he0 : 0 < eu
    · rw [if_pos ⟨hs, he0⟩]
      have heulte : eu < 2 ^ u := by
        have : eu < 2 ^ (u - st) := by rw [heu]; exact Nat.mod_lt _ (Nat.two_pow_pos _)
        exact lt_of_lt_of_le this (Nat.pow_le_pow_right (by omega) (by omega))
      have hln : lv < n := by
        apply digit_bound he
        rw [← hdig, Nat.mod_eq_of_lt heulte]
        exact he0
      obtain ⟨a, ha, ho, hv⟩ := hT.entry lv hln eu he0 heulte
      rw [ha]
      refine ⟨S.mul r a, rfl, L.mul_ok _ _ hB.r_ok ho, ?_⟩
      rw [L.mul_val _ _ hB.r_ok ho, hv, hB.r_val, ← pow_add, hdig, Nat.mod_add_div']
    · rw [if_neg (by omega)]
      refine ⟨r, rfl, hB.r_ok, ?_⟩
      rw [hB.r_val]
      congr 1
      apply Nat.mod_eq_of_lt
      by_contra hc
      have : 0 < N / 2 ^ (u * lv) := Nat.div_pos (by omega) (Nat.two_pow_pos _)
      omega
  · rw [if_neg (by omega)]
    refine ⟨r, rfl, hB.r_ok, ?_⟩
    rw [hB.r_val, hB.zero (by omega), Nat.mod_eq_of_lt hlt]

end pow

theorem getWords_ok (wb e : Nat) (h : 0 < wb) : (∀ w ∈ getWords wb e, w < 2 ^ wb) ∧ Nat.ofDigits (2 ^ wb) (getWords wb e) = e :=
  ⟨fun _ hw => Nat.digits_lt_base (Nat.one_lt_two_pow (by omega)) hw, Nat.ofDigits_digits _ _⟩

theorem ofDigits_range (b e k : Nat) (hb : 0 < b) : Nat.ofDigits b ((List.range k).map fun i => e / b ^ i % b) = e % b ^ k := by
  induction k with
  | zero => simp [Nat.mod_one]
  | succ k ih =>
    rw [List.range_succ, List.map_append, Nat.ofDigits_append, ih]
    simp only [List.length_map, List.length_range, List.map_cons, List.map_nil, Nat.ofDigits_singleton]
    rw [pow_succ, Nat.mod_mul]

theorem getWordsOpenssl_ok (e : Nat) : (∀ w ∈ getWordsOpenssl e, w < 2 ^ 64) ∧ Nat.ofDigits (2 ^ 64) (getWordsOpenssl e) = e := by
  constructor
  · intro w hw
    obtain ⟨i, -, rfl⟩ := List.mem_map.mp hw
    exact Nat.mod_lt _ (Nat.two_pow_pos _)
  · unfold getWordsOpenssl
    have : (fun i => e / 2 ^ (64 * i) % 2 ^ 64) = fun i => e / (2 ^ 64) ^ i % 2 ^ 64 := by
      funext i; rw [pow_mul]
    rw [this, ofDigits_range _ _ _ (Nat.two_pow_pos _)]
    apply Nat.mod_eq_of_lt
    rw [← pow_mul]
    apply lt_of_lt_of_le (Nat.lt_size_self e)
    exact Nat.pow_le_pow_right (by omega) (by omega)

/-! ### The property -/

/-- C109. Making a table refuses negative bases and empty units; a table for `max` bits with units shorter than 32 bits is made. -/
theorem C109_table (S : Space α) (base : α) (unit max : Nat) :
    (S.neg base = true ∨ unit = 0 → makeTable S base unit max = .throws) ∧
    (S.neg base = false → 0 < unit → unit < 32 → ∃ T, makeTable S base unit max = .ok T ∧ max ≤ T.maxBits) := by
  constructor
  · rintro (h | h)
    · unfold makeTable; rw [if_pos h]
    · unfold makeTable; split_ifs <;> rfl
  · intro h1 h2 h3
    unfold makeTable
    rw [if_neg (by simp [h1]), if_neg (by omega), if_neg (by omega)]
    refine ⟨_, rfl, ?_⟩
    simp only
    have := Nat.div_add_mod (max + unit - 1) unit
    have h4 := Nat.mod_lt (max + unit - 1) h2
    rw [Nat.mul_comm unit] at this
    omega

/-- C109. In any Montgomery space with words of at most 64 bits, the table gives `base^e`, whatever the unit and for every exponent within the size the table was made for;
every other exponent is refused. `val` reads off the number that a number in Montgomery form stands for. -/
theorem C109_pow {S : Space α} {okp : α → Prop} {val : α → M} (L : S.Law okp val) (base : α) (hb : okp (S.into base)) (unit max : Nat) (T : Table α)
    (hT : makeTable S base unit max = .ok T) (wb : Nat) (h31 : 31 ≤ wb) (h64 : wb ≤ 64) (e : Int) (words : List Nat)
    (hw : ∀ w ∈ words, w < 2 ^ wb) (hval : Nat.ofDigits (2 ^ wb) words = e.natAbs) :
    (0 ≤ e ∧ e.natAbs.size ≤ T.maxBits → ∃ r, powMod S wb T e words = .ok r ∧ okp r ∧ val r = val (S.into base) ^ e.natAbs) ∧
    (¬(0 ≤ e ∧ e.natAbs.size ≤ T.maxBits) → powMod S wb T e words = .throws) := by
  have hG := makeTable_good L base hb unit max T hT
  have hu : unit < 32 := by
    unfold makeTable at hT
    split_ifs at hT
    omega
  constructor
  · rintro ⟨h0, h1⟩
    rw [hG.maxBits] at h1
    exact powMod_spec L hG wb (by omega) h64 e h0 h1 words hw hval
  · intro h
    unfold powMod
    rw [if_pos]
    by_contra hc
    push Not at hc
    exact h hc

end Yacl.BigInt
