import Verif.Matrix.Props
import Verif.Gf.Hash

/-! IKNP and KOS OT extension: yacl/kernel/algorithms/{iknp_ote,kos_ote}.cc. Properties C37, C38.

The pseudo-random generator `prg seed len i` (block `i` of the `len` blocks `PrgAesCtr` derives from `seed`) and the
correlation-robust hash `h` are arbitrary functions. -/
namespace Yacl.OtExt
open Matrix

abbrev B := BitVec 128
/-- `PrgAesCtr` on blocks: seed, number of blocks, index. -/
abbrev Prg := B → Nat → Nat → B
abbrev Junk := (B × B) × (B × B)

/-! ### Model -/

/-- A 128-bit word of a `dynamic_bitset<uint128_t>` (base/dynamic_bitset.h: bit `j` of a word is element `j`, unused bits are zero). -/
def word (f : Nat → Bool) : B := (List.range 128).foldl (fun t j => t ||| (if f j then (1 : B) <<< j else 0)) 0

/-- The base OTs: the extension receiver holds both messages, the extension sender the choices and the chosen messages. -/
structure Base where
  k0 : Nat → B
  k1 : Nat → B
  s : Nat → Bool

def Base.ks (b : Base) (k : Nat) : B := if b.s k then b.k1 k else b.k0 k

/-- iknp_ote.cc L148, L126, kos_ote.cc L267: word `i` of the padded choices. -/
def choiceWord (choices : List Bool) (i : Nat) : B := word fun j => choices.getD (128 * i + j) false

/-- iknp_ote.cc L137-158 (the part sent in batch `i`), kos_ote.cc L265-277. -/
def uMsg (prg : Prg) (b : Base) (len : Nat) (choices : List Bool) (i : Nat) : Mat :=
  fun k => prg (b.k0 k) len i ^^^ prg (b.k1 k) len i ^^^ choiceWord choices i

/-- iknp_ote.cc L146-151, L163: the receiver's transposed batch `i`. -/
def recvBatch (prg : Prg) (b : Base) (len : Nat) (sse2 : Bool) (junk : Junk) (i : Nat) : Mat :=
  matrixTranspose128 sse2 junk fun k => prg (b.k0 k) len i

/-- iknp_ote.cc L69-89: the sender's transposed batch `i` after receiving `u`. -/
def sendBatch (prg : Prg) (b : Base) (len : Nat) (sse2 : Bool) (junk : Junk) (u : Nat → Mat) (i : Nat) : Mat :=
  matrixTranspose128 sse2 junk fun k => if b.s k then u i k ^^^ prg (b.ks k) len i else prg (b.ks k) len i

/-- The output loops (iknp_ote.cc L104-110, L168-178): batch by batch, `min(128, n - 128 i)` elements of each. -/
def collect {α : Type} (n batches : Nat) (f : Nat → Nat → α) : List α :=
  (List.range batches).flatMap fun i => (List.range (min 128 (n - i * 128))).map (f i)

/-- iknp_ote.cc L39-112 `IknpOtExtSend`; `none` when an `ENFORCE` fails. `hash` is the identity in correlated mode. -/
def iknpSend (prg : Prg) (h : B → B) (b : Base) (n : Nat) (cot sse2 : Bool) (junk : Junk) (u : Nat → Mat) : Option (List (B × B)) :=
  if n = 0 then none
  else
    let len := (n + 128 - 1) / 128
    let fin := fun x => if cot then x else h x
    let delta := word b.s
    some (collect n len fun i j =>
      (fin (sendBatch prg b len sse2 junk u i j), fin (sendBatch prg b len sse2 junk u i j ^^^ delta)))

/-- iknp_ote.cc L114-180 `IknpOtExtRecv`: the messages sent and the output; `none` when an `ENFORCE` fails. -/
def iknpRecv (prg : Prg) (h : B → B) (b : Base) (n : Nat) (choices : List Bool) (cot sse2 : Bool) (junk : Junk) :
    Option ((Nat → Mat) × List B) :=
  if n ≠ choices.length ∨ n = 0 then none
  else
    let len := (n + 128 - 1) / 128
    let fin := fun x => if cot then x else h x
    some (uMsg prg b len choices, collect n len fun i j => fin (recvBatch prg b len sse2 junk i j))

/-- kos_ote.cc L91-109 `ExtendChoice`: 64 random choices are appended, then zero padding. -/
def extendChoice (choices rnd : List Bool) : List Bool := choices ++ rnd.take 64

/-- The 64-bit words of a row of blocks, in memory order (little endian): kos_ote.cc L174-176, L296-306. -/
def words64 (f : Nat → B) (n : Nat) : List (BitVec 64) := (List.range n).flatMap fun i => [Gf.lo (f i), Gf.hi (f i)]

/-- kos_ote.cc L141-160: the sender's rows after correction. -/
def kosRows (prg : Prg) (b : Base) (len : Nat) (u : Nat → Mat) (k i : Nat) : B :=
  if b.s k then prg (b.ks k) len i ^^^ u i k else prg (b.ks k) len i

/-- kos_ote.cc L294-306: the receiver's check message for the challenge `chi`. -/
def kosCheckMsg (prg : Prg) (b : Base) (len : Nat) (choiceExt : List Bool) (chi : List (BitVec 64)) :
    Option (BitVec 64) × (Nat → Option (BitVec 64)) :=
  (Gf.gf64MulSpan chi (words64 (choiceWord choiceExt) len), fun k => Gf.gf64MulSpan chi (words64 (prg (b.k0 k) len) len))

/-- kos_ote.cc L172-193: the sender's check of row `k`. -/
def kosCheckRow (prg : Prg) (b : Base) (len : Nat) (u : Nat → Mat) (chi : List (BitVec 64))
    (x : BitVec 64) (t : Nat → BitVec 64) (k : Nat) : Bool :=
  let q := Gf.gf64MulSpan chi (words64 (kosRows prg b len u k) len)
  let result := if b.s k then t k ^^^ x else t k
  decide (q = some result)

/-- kos_ote.cc L113-235 `KosOtExtSend`: `none` when an `ENFORCE` fails, in particular when the check does. `chi` are the
`2 * batch_num` words derived from the seed. -/
def kosSend (prg : Prg) (h : B → B) (b : Base) (n : Nat) (cot sse2 : Bool) (junk : Junk) (u : Nat → Mat) (chi : List (BitVec 64))
    (x : BitVec 64) (t : Nat → BitVec 64) : Option (List (B × B)) :=
  if n = 0 then none
  else
    let len := (n + 64 + 128 - 1) / 128
    if (List.range 128).all (kosCheckRow prg b len u chi x t) then
      let q := (collect (n + 64) len fun i j => matrixTranspose128 sse2 junk (fun k => kosRows prg b len u k i) j).take n
      let delta := word b.s
      let fin := fun x => if cot then x else h x
      some (q.map fun v => (fin v, fin (v ^^^ delta)))
    else none

/-- kos_ote.cc L237-336 `KosOtExtRecv`: the messages sent, the answer to a challenge and the output. -/
def kosRecv (prg : Prg) (h : B → B) (b : Base) (n : Nat) (choices rnd : List Bool) (cot sse2 : Bool) (junk : Junk) :
    Option ((Nat → Mat) × (List (BitVec 64) → Option (BitVec 64) × (Nat → Option (BitVec 64))) × List B) :=
  if n ≠ choices.length ∨ n = 0 then none
  else
    let len := (n + 64 + 128 - 1) / 128
    let ext := extendChoice choices rnd
    let t := (collect (n + 64) len fun i j => recvBatch prg b len sse2 junk i j).take n
    some (uMsg prg b len ext, kosCheckMsg prg b len ext, t.map fun v => if cot then v else h v)

/-! ### Lemmas -/

theorem zero_bit (c : Nat) : (0 : B).getLsbD c = false := by simp

theorem word_bit (f : Nat → Bool) (j : Nat) (hj : j < 128) : (word f).getLsbD j = f j := by
  unfold word
  rw [or_fold_bits (fun j => if f j then (1 : B) <<< j else 0) f 128 ?_ 0 j hj]
  · simp [hj]
  · intro i _ c hc
    by_cases hf : f i = true
    · simp only [hf, if_true, BitVec.getLsbD_shiftLeft]
      by_cases h : c = i
      · subst h
        simp [hc]
      · by_cases h2 : c < i
        · simp [h, h2]
        · simp [h, show c - i ≠ 0 by omega]
    · simp [hf]

theorem collect_length {α : Type} (n : Nat) (f : Nat → Nat → α) (m : Nat) (hm : m * 128 ≤ n + 127) :
    (collect n m f).length = min n (m * 128) := by
  induction m with
  | zero => simp [collect]
  | succ m ih =>
    have hs : collect n (m + 1) f = collect n m f ++ (List.range (min 128 (n - m * 128))).map (f m) := by
      unfold collect
      rw [List.range_succ, List.flatMap_append]
      simp
    rw [hs, List.length_append, ih (by omega), List.length_map, List.length_range]
    omega

theorem collect_get {α : Type} (n : Nat) (f : Nat → Nat → α) (m : Nat) (hm : m * 128 ≤ n + 127) (q : Nat) (hq : q < min n (m * 128)) :
    (collect n m f)[q]? = some (f (q / 128) (q % 128)) := by
  induction m with
  | zero => omega
  | succ m ih =>
    have hs : collect n (m + 1) f = collect n m f ++ (List.range (min 128 (n - m * 128))).map (f m) := by
      unfold collect
      rw [List.range_succ, List.flatMap_append]
      simp
    have hl := collect_length n f m (by omega)
    rw [hs]
    by_cases hlt : q < min n (m * 128)
    · rw [List.getElem?_append_left (by omega)]
      exact ih (by omega) hlt
    · rw [List.getElem?_append_right (by omega), hl]
      have e1 : q / 128 = m := by omega
      have e2 : q % 128 = q - min n (m * 128) := by omega
      rw [List.getElem?_map, List.getElem?_range (by omega), e1, e2]
      rfl

/-- The IKNP relation on the transposed batches: the sender's row is the receiver's, shifted by the base choices where the choice
bit is one. -/
theorem batch_relation (prg : Prg) (b : Base) (len : Nat) (choices : List Bool) (s1 s2 : Bool) (j1 j2 : Junk) (i j : Nat) (hj : j < 128) :
    sendBatch prg b len s1 j1 (uMsg prg b len choices) i j =
      recvBatch prg b len s2 j2 i j ^^^ (if choices.getD (128 * i + j) false then word b.s else 0) := by
  apply BitVec.eq_of_getLsbD_eq
  intro c hc
  unfold sendBatch recvBatch
  rw [(C28_dispatch_transposes s1 j1 _).1 j hj c hc, BitVec.getLsbD_xor, (C28_dispatch_transposes s2 j2 _).1 j hj c hc]
  have hw : (choiceWord choices i).getLsbD j = choices.getD (128 * i + j) false := word_bit _ j hj
  have hd : (word b.s).getLsbD c = b.s c := word_bit _ c hc
  cases hs : b.s c with
  | true =>
    simp only [if_true, Base.ks, hs, uMsg, BitVec.getLsbD_xor, hw]
    cases choices.getD (128 * i + j) false with
    | true => 
      simp only [if_true, hd, hs]
      cases (prg (b.k0 c) len i).getLsbD j <;> cases (prg (b.k1 c) len i).getLsbD j <;> rfl
    | false =>
      simp only [Bool.false_eq_true, if_false, zero_bit]
      cases (prg (b.k0 c) len i).getLsbD j <;> cases (prg (b.k1 c) len i).getLsbD j <;> rfl
  | false =>
    simp only [Bool.false_eq_true, if_false, Base.ks, hs]
    cases choices.getD (128 * i + j) false with
    | true =>
      simp only [if_true, hd, hs, Bool.xor_false]
    | false =>
      simp only [Bool.false_eq_true, if_false, zero_bit, Bool.xor_false]

/-! ### C37 -/

/-- What an extension must achieve: OT `q` of the receiver is the message its choice selects. -/
def OtCorrect (choices : List Bool) (send : List (B × B)) (recv : List B) : Prop :=
  send.length = choices.length ∧ recv.length = choices.length ∧
  ∀ (q : Nat) (c : Bool) (m : B × B) (r : B), choices[q]? = some c → send[q]? = some m → recv[q]? = some r → r = if c then m.2 else m.1

/-- In correlated mode the two messages differ by `delta` in every OT. -/
def Correlated (delta : B) (send : List (B × B)) : Prop := ∀ m ∈ send, m.2 = m.1 ^^^ delta

/-- C37. For every number of OTs, every choice vector, every base OT, generator and hash, and whichever transposes the two parties'
machines use: IKNP delivers to the receiver exactly the messages its choices select; in correlated mode the two sender messages
differ by the base choice vector. -/
theorem C37_iknp (prg : Prg) (h : B → B) (b : Base) (choices : List Bool) (hn : choices ≠ []) (cot s1 s2 : Bool) (j1 j2 : Junk) :
    ∃ u recv send, iknpRecv prg h b choices.length choices cot s2 j2 = some (u, recv) ∧
      iknpSend prg h b choices.length cot s1 j1 u = some send ∧
      OtCorrect choices send recv ∧ (cot = true → Correlated (word b.s) send) := by
  have h0 : choices.length ≠ 0 := by simpa using hn
  generalize hN : choices.length = n at *
  refine ⟨uMsg prg b ((n + 128 - 1) / 128) choices,
    collect n ((n + 128 - 1) / 128) fun i j => (fun x => if cot then x else h x) (recvBatch prg b ((n + 128 - 1) / 128) s2 j2 i j),
    collect n ((n + 128 - 1) / 128) fun i j =>
      ((fun x => if cot then x else h x) (sendBatch prg b ((n + 128 - 1) / 128) s1 j1 (uMsg prg b ((n + 128 - 1) / 128) choices) i j),
       (fun x => if cot then x else h x) (sendBatch prg b ((n + 128 - 1) / 128) s1 j1 (uMsg prg b ((n + 128 - 1) / 128) choices) i j ^^^ word b.s)),
    ?_, ?_, ?_⟩
  · simp only [iknpRecv, hN]
    rw [if_neg (by simp [h0])]
  · simp only [iknpSend]
    rw [if_neg h0]
  have hm1 : (n + 128 - 1) / 128 * 128 ≤ n + 127 := by omega
  have hm2 : n ≤ (n + 128 - 1) / 128 * 128 := by omega
  refine ⟨⟨?_, ?_, ?_⟩, ?_⟩
  · rw [collect_length n _ _ hm1]; omega
  · rw [collect_length n _ _ hm1]; omega
  · intro q c m r hc hm hr
    have hq : q < n := by
      rcases Nat.lt_or_ge q choices.length with h' | h'
      · omega
      · rw [List.getElem?_eq_none h'] at hc
        simp at hc
    rw [collect_get n _ _ hm1 q (by omega), Option.some.injEq] at hm hr
    have hg : choices.getD (128 * (q / 128) + q % 128) false = c := by
      rw [Nat.div_add_mod, List.getD_eq_getElem?_getD, hc]
      rfl
    have hrel := batch_relation prg b ((n + 128 - 1) / 128) choices s1 s2 j1 j2 (q / 128) (q % 128) (Nat.mod_lt _ (by omega))
    rw [hg] at hrel
    subst hm hr
    simp only [hrel]
    cases c with
    | true => simp [BitVec.xor_assoc]
    | false => simp
  · intro hcot m hm
    subst hcot
    simp only [collect, if_true, List.mem_flatMap, List.mem_map] at hm
    obtain ⟨i, _, j, _, rfl⟩ := hm
    rfl

/-! ### C38 -/

theorem words64_length (f : Nat → B) (n : Nat) : (words64 f n).length = 2 * n := by
  unfold words64
  induction n with
  | zero => rfl
  | succ n ih => rw [List.range_succ, List.flatMap_append, List.length_append, ih]; simp; omega

theorem words64_xor (f g : Nat → B) (n : Nat) :
    words64 (fun i => f i ^^^ g i) n = (words64 f n).zipWith (· ^^^ ·) (words64 g n) := by
  induction n with
  | zero => rfl
  | succ n ih =>
    have e : ∀ f : Nat → B, words64 f (n + 1) = words64 f n ++ [Gf.lo (f n), Gf.hi (f n)] := by
      intro f
      unfold words64
      rw [List.range_succ, List.flatMap_append]
      simp
    rw [e, e, e, ih, List.zipWith_append (by rw [words64_length, words64_length])]
    simp [Gf.lo, Gf.hi, BitVec.extractLsb'_xor]

/-- The field value of the span product. -/
theorem span_val (x y : List (BitVec 64)) (h : x.length = y.length) :
    ∃ z, Gf.gf64MulSpan x y = some z ∧ Gf.val64 z = ((x.zip y).map fun p => Gf.val64 p.1 * Gf.val64 p.2).sum := by
  obtain ⟨z, hz, hi⟩ := Gf.C59_inner64 x y h
  refine ⟨z, hz, ?_⟩
  unfold Gf.IsInnerProductMod at hi
  have h1 : Gf.val64 z = AdjoinRoot.mk Gf.f64 ((x.zip y).map fun p => Gf.toPoly p.1 * Gf.toPoly p.2).sum := by
    symm
    exact AdjoinRoot.mk_eq_mk.mpr hi
  rw [h1, map_list_sum, List.map_map]
  congr 1

theorem span_sum_xor (c y z : List (BitVec 64)) (h1 : c.length = y.length) (h2 : c.length = z.length) :
    ((c.zip (y.zipWith (· ^^^ ·) z)).map fun p => Gf.val64 p.1 * Gf.val64 p.2).sum =
      ((c.zip y).map fun p => Gf.val64 p.1 * Gf.val64 p.2).sum + ((c.zip z).map fun p => Gf.val64 p.1 * Gf.val64 p.2).sum := by
  induction c generalizing y z with
  | nil => simp
  | cons a c ih =>
    cases y with
    | nil => simp at h1
    | cons b y =>
      cases z with
      | nil => simp at h2
      | cons d z =>
        simp only [List.zipWith_cons_cons, List.zip_cons_cons, List.map_cons, List.sum_cons, Gf.val64_add,
          ih y z (by simpa using h1) (by simpa using h2)]
        ring

/-- The span product is linear in its second argument. -/
theorem span_linear (c y z : List (BitVec 64)) (h1 : c.length = y.length) (h2 : c.length = z.length) :
    ∃ a b, Gf.gf64MulSpan c y = some a ∧ Gf.gf64MulSpan c z = some b ∧ Gf.gf64MulSpan c (y.zipWith (· ^^^ ·) z) = some (a ^^^ b) := by
  obtain ⟨a, ha, ha'⟩ := span_val c y h1
  obtain ⟨b, hb, hb'⟩ := span_val c z h2
  obtain ⟨d, hd, hd'⟩ := span_val c (y.zipWith (· ^^^ ·) z) (by simp; omega)
  refine ⟨a, b, ha, hb, ?_⟩
  rw [hd]
  congr 1
  apply Gf.val64_inj
  rw [hd', span_sum_xor c y z h1 h2, Gf.val64_add, ha', hb']

theorem kosRows_honest (prg : Prg) (b : Base) (len : Nat) (choices : List Bool) (k : Nat) :
    kosRows prg b len (uMsg prg b len choices) k =
      fun i => prg (b.k0 k) len i ^^^ (if b.s k then choiceWord choices i else 0) := by
  funext i
  unfold kosRows Base.ks uMsg
  cases b.s k with
  | true =>
    simp only [if_true]
    rw [BitVec.xor_comm (prg (b.k0 k) len i), BitVec.xor_assoc, ← BitVec.xor_assoc, BitVec.xor_self, BitVec.zero_xor]
  | false => simp

theorem check_honest (prg : Prg) (b : Base) (len : Nat) (ext : List Bool) (chi : List (BitVec 64)) (hchi : chi.length = 2 * len) :
    ∃ x t, (kosCheckMsg prg b len ext chi).1 = some x ∧ (∀ k, (kosCheckMsg prg b len ext chi).2 k = some (t k)) ∧
      ∀ k, kosCheckRow prg b len (uMsg prg b len ext) chi x t k = true := by
  obtain ⟨x, hx, _⟩ := span_val chi (words64 (choiceWord ext) len) (by rw [words64_length, hchi])
  have ht : ∀ k, ∃ t, Gf.gf64MulSpan chi (words64 (prg (b.k0 k) len) len) = some t := fun k => by
    obtain ⟨t, ht, _⟩ := span_val chi (words64 (prg (b.k0 k) len) len) (by rw [words64_length, hchi])
    exact ⟨t, ht⟩
  choose t ht using ht
  refine ⟨x, t, hx, ht, fun k => ?_⟩
  unfold kosCheckRow
  simp only [decide_eq_true_eq]
  rw [kosRows_honest]
  cases hs : b.s k with
  | true =>
    simp only [if_true]
    rw [words64_xor]
    obtain ⟨a, d, ha, hd, had⟩ := span_linear chi (words64 (prg (b.k0 k) len) len) (words64 (choiceWord ext) len)
      (by rw [words64_length, hchi]) (by rw [words64_length, hchi])
    have e1 : a = t k := by rw [ht] at ha; exact (Option.some.inj ha).symm
    have e2 : d = x := by rw [hx] at hd; exact (Option.some.inj hd).symm
    subst e1 e2
    exact had
  | false =>
    have e : (fun i => prg (b.k0 k) len i ^^^ (0 : B)) = prg (b.k0 k) len := by
      funext i
      simp
    simp only [Bool.false_eq_true, if_false]
    rw [e]
    exact ht k

/-- C38. For every number of OTs, choices, base OTs, generator and hash, every check bits `rnd` and every challenge, an honest run
of KOS passes the consistency check and delivers exactly the messages the choices select. -/
theorem C38_kos_complete (prg : Prg) (h : B → B) (b : Base) (choices rnd : List Bool) (hn : choices ≠ []) (hr : rnd.length = 64)
    (cot s1 s2 : Bool) (j1 j2 : Junk) (chi : List (BitVec 64)) (hchi : chi.length = 2 * ((choices.length + 64 + 127) / 128)) :
    ∃ u answer recv x t send, kosRecv prg h b choices.length choices rnd cot s2 j2 = some (u, answer, recv) ∧
      (answer chi).1 = some x ∧ (∀ k, (answer chi).2 k = some (t k)) ∧
      kosSend prg h b choices.length cot s1 j1 u chi x t = some send ∧
      OtCorrect choices send recv ∧ (cot = true → Correlated (word b.s) send) := by
  have h0 : choices.length ≠ 0 := by simpa using hn
  generalize hN : choices.length = n at *
  have hlen : (n + 64 + 128 - 1) / 128 = (n + 64 + 127) / 128 := rfl
  have hm1 : (n + 64 + 127) / 128 * 128 ≤ n + 64 + 127 := by omega
  have hm2 : n + 64 ≤ (n + 64 + 127) / 128 * 128 := by omega
  generalize hL : (n + 64 + 127) / 128 = len at *
  obtain ⟨x, t, hx, ht, hall⟩ := check_honest prg b len (extendChoice choices rnd) chi hchi
  refine ⟨uMsg prg b len (extendChoice choices rnd), kosCheckMsg prg b len (extendChoice choices rnd),
    ((collect (n + 64) len fun i j => recvBatch prg b len s2 j2 i j).take n).map fun v => if cot then v else h v, x, t,
    ((collect (n + 64) len fun i j => matrixTranspose128 s1 j1 (fun k => kosRows prg b len (uMsg prg b len (extendChoice choices rnd)) k i) j).take n).map
      fun v => ((if cot then v else h v), (if cot then v ^^^ word b.s else h (v ^^^ word b.s))),
    ?_, hx, ht, ?_, ?_⟩
  · simp only [kosRecv, hN, hlen]
    rw [if_neg (by simp [h0])]
  · simp only [kosSend, hlen]
    rw [if_neg h0, if_pos (List.all_eq_true.mpr fun k _ => hall k)]
  have hrow : ∀ i j, matrixTranspose128 s1 j1 (fun k => kosRows prg b len (uMsg prg b len (extendChoice choices rnd)) k i) j =
      sendBatch prg b len s1 j1 (uMsg prg b len (extendChoice choices rnd)) i j := by
    intro i j
    unfold sendBatch
    congr 1
    funext k
    unfold kosRows
    rw [BitVec.xor_comm]
  refine ⟨⟨?_, ?_, ?_⟩, ?_⟩
  · rw [List.length_map, List.length_take, collect_length _ _ _ hm1]; omega
  · rw [List.length_map, List.length_take, collect_length _ _ _ hm1]; omega
  · intro q c m r hc hm hr'
    have hq : q < n := by
      rcases Nat.lt_or_ge q choices.length with h' | h'
      · omega
      · rw [List.getElem?_eq_none h'] at hc
        simp at hc
    rw [List.getElem?_map, List.getElem?_take_of_lt hq, collect_get _ _ _ hm1 q (by omega)] at hm hr'
    simp only [Option.map_some, Option.some.injEq] at hm hr'
    have hg : (extendChoice choices rnd).getD (128 * (q / 128) + q % 128) false = c := by
      unfold extendChoice
      rw [Nat.div_add_mod, List.getD_eq_getElem?_getD, List.getElem?_append_left (by omega), hc]
      rfl
    have hrel := batch_relation prg b len (extendChoice choices rnd) s1 s2 j1 j2 (q / 128) (q % 128) (Nat.mod_lt _ (by omega))
    rw [hg] at hrel
    rw [hrow, hrel] at hm
    subst hm hr'
    cases c with
    | true => simp [BitVec.xor_assoc]
    | false => simp
  · intro hcot m hm
    subst hcot
    simp only [if_true, List.mem_map] at hm
    obtain ⟨v, _, rfl⟩ := hm
    rfl

/-! ### C74: a receiver that uses different choices in different columns is caught -/

/-- The choice words a (possibly cheating) receiver's message `u` commits it to in column `k`. -/
def usedChoice (prg : Prg) (b : Base) (len : Nat) (u : Nat → Mat) (k i : Nat) : B :=
  prg (b.k0 k) len i ^^^ prg (b.k1 k) len i ^^^ u i k

/-- The same base OTs with column `k`'s choice bit replaced. -/
def setS (b : Base) (k : Nat) (v : Bool) : Base := { b with s := Function.update b.s k v }

theorem rows_used (prg : Prg) (b : Base) (len : Nat) (u : Nat → Mat) (k : Nat) :
    kosRows prg b len u k = fun i => prg (b.k0 k) len i ^^^ (if b.s k then usedChoice prg b len u k i else 0) := by
  funext i
  unfold kosRows Base.ks usedChoice
  cases b.s k with
  | true =>
    simp only [if_true]
    rw [BitVec.xor_assoc (prg (b.k0 k) len i), ← BitVec.xor_assoc (prg (b.k0 k) len i) (prg (b.k0 k) len i), BitVec.xor_self,
      BitVec.zero_xor]
  | false => simp

/-- If column `k` passes whatever the sender's secret bit `k` is, then the answer `x` is the combination of column `k`'s choices. -/
theorem passes_both (prg : Prg) (b : Base) (len : Nat) (u : Nat → Mat) (chi : List (BitVec 64)) (hchi : chi.length = 2 * len)
    (x : BitVec 64) (t : Nat → BitVec 64) (k : Nat)
    (hp : ∀ v, kosCheckRow prg (setS b k v) len u chi x t k = true) :
    Gf.gf64MulSpan chi (words64 (usedChoice prg b len u k) len) = some x := by
  have h0 := hp false
  have h1 := hp true
  unfold kosCheckRow at h0 h1
  simp only [decide_eq_true_eq] at h0 h1
  rw [rows_used] at h0 h1
  have e0 : (setS b k false).s k = false := by simp [setS]
  have e1 : (setS b k true).s k = true := by simp [setS]
  have ek : ∀ v, (setS b k v).k0 = b.k0 := fun v => rfl
  have eu : usedChoice prg (setS b k true) len u k = usedChoice prg b len u k := rfl
  simp only [e0, e1, ek, Bool.false_eq_true, if_false, if_true, eu] at h0 h1
  have e : (fun i => prg (b.k0 k) len i ^^^ (0 : B)) = prg (b.k0 k) len := by
    funext i
    simp
  rw [e] at h0
  rw [words64_xor] at h1
  obtain ⟨a, d, ha, hd, had⟩ := span_linear chi (words64 (prg (b.k0 k) len) len) (words64 (usedChoice prg b len u k) len)
    (by rw [words64_length, hchi]) (by rw [words64_length, hchi])
  rw [h0, Option.some.injEq] at ha
  rw [had, Option.some.injEq] at h1
  rw [hd]
  congr 1
  have : d = a ^^^ (a ^^^ d) := by rw [← BitVec.xor_assoc, BitVec.xor_self, BitVec.zero_xor]
  rw [this, h1, ← ha, ← BitVec.xor_assoc, BitVec.xor_self, BitVec.zero_xor]

theorem sum_set (c y : List (BitVec 64)) (h : c.length = y.length) (p : Nat) (hp : p < c.length) (v : BitVec 64) :
    (((c.set p v).zip y).map fun q => Gf.val64 q.1 * Gf.val64 q.2).sum =
      ((c.zip y).map fun q => Gf.val64 q.1 * Gf.val64 q.2).sum + Gf.val64 (c.getD p 0 ^^^ v) * Gf.val64 (y.getD p 0) := by
  induction c generalizing y p with
  | nil => simp at hp
  | cons a c ih =>
    cases y with
    | nil => simp at h
    | cons d y =>
      cases p with
      | zero =>
        simp only [List.set_cons_zero, List.zip_cons_cons, List.map_cons, List.sum_cons, List.getD_cons_zero, Gf.val64_add]
        have two : Gf.val64 a + Gf.val64 a = 0 := by
          rw [← Gf.val64_add, BitVec.xor_self]
          exact Gf.val64_zero
        linear_combination -(Gf.val64 d) * two
      | succ p =>
        simp only [List.set_cons_succ, List.zip_cons_cons, List.map_cons, List.sum_cons, List.getD_cons_succ]
        rw [ih y (by simpa using h) p (by simpa using hp)]
        ring

/-- Two columns use the same choices. -/
def SameChoices (prg : Prg) (b : Base) (len : Nat) (u : Nat → Mat) (k l : Nat) : Prop :=
  ∀ i < len, usedChoice prg b len u k i = usedChoice prg b len u l i

/-- The cheating receiver gets away with columns `k` and `l` under challenge `chi`: some answer passes both checks whatever the sender's
secret bits `k` and `l` are. -/
def Undetected (prg : Prg) (b : Base) (len : Nat) (u : Nat → Mat) (k l : Nat) (chi : List (BitVec 64)) : Prop :=
  ∃ x t, (∀ v, kosCheckRow prg (setS b k v) len u chi x t k = true) ∧ (∀ v, kosCheckRow prg (setS b l v) len u chi x t l = true)

theorem lohi_ext {x y : B} (h1 : Gf.lo x = Gf.lo y) (h2 : Gf.hi x = Gf.hi y) : x = y := by
  apply BitVec.eq_of_getLsbD_eq
  intro i hi
  by_cases h : i < 64
  · have := congrArg (fun z => z.getLsbD i) h1
    simpa [Gf.lo, h] using this
  · have := congrArg (fun z => z.getLsbD (i - 64)) h2
    simpa [Gf.hi, show i - 64 < 64 by omega, show 64 + (i - 64) = i by omega] using this

theorem words64_inj (f g : Nat → B) (n : Nat) (h : words64 f n = words64 g n) : ∀ i < n, f i = g i := by
  induction n with
  | zero => intro i hi; omega
  | succ n ih =>
    have e : ∀ f : Nat → B, words64 f (n + 1) = words64 f n ++ [Gf.lo (f n), Gf.hi (f n)] := by
      intro f
      unfold words64
      rw [List.range_succ, List.flatMap_append]
      simp
    rw [e, e] at h
    have h' := List.append_inj h (by rw [words64_length, words64_length])
    intro i hi
    by_cases hin : i < n
    · exact ih h'.1 i hin
    · have : i = n := by omega
      subst this
      have := h'.2
      simp only [List.cons.injEq, and_true] at this
      exact lohi_ext this.1 this.2

/-- C74. A receiver whose message uses different choices in two columns is caught for all but one in `2^64` challenges: there is a
challenge word such that, whatever the other words are, at most one value of that word lets it pass without guessing a secret bit. -/
theorem C74_kos_sound (prg : Prg) (b : Base) (len : Nat) (u : Nat → Mat) (k l : Nat) (hne : ¬ SameChoices prg b len u k l) :
    ∃ p < 2 * len, ∀ chi : List (BitVec 64), chi.length = 2 * len → ∀ v v' : BitVec 64,
      Undetected prg b len u k l (chi.set p v) → Undetected prg b len u k l (chi.set p v') → v = v' := by
  generalize hY : words64 (usedChoice prg b len u k) len = Y
  generalize hZ : words64 (usedChoice prg b len u l) len = Z
  have hYl : Y.length = 2 * len := by rw [← hY, words64_length]
  have hZl : Z.length = 2 * len := by rw [← hZ, words64_length]
  have hYZ : Y ≠ Z := by
    intro e
    rw [← hY, ← hZ] at e
    exact hne (words64_inj _ _ _ e)
  obtain ⟨p, hp, hpne⟩ : ∃ p, ∃ _ : p < 2 * len, Y.getD p 0 ≠ Z.getD p 0 := by
    by_contra hcon
    push Not at hcon
    apply hYZ
    apply List.ext_getElem (by omega)
    intro i h1 h2
    have := hcon i (by omega)
    rwa [List.getD_eq_getElem _ _ h1, List.getD_eq_getElem _ _ h2] at this
  refine ⟨p, hp, ?_⟩
  -- under an undetected challenge the combination of the difference is zero
  have key : ∀ chi : List (BitVec 64), chi.length = 2 * len → Undetected prg b len u k l chi →
      ((chi.zip (Y.zipWith (· ^^^ ·) Z)).map fun q => Gf.val64 q.1 * Gf.val64 q.2).sum = 0 := by
    rintro chi hchi ⟨x, t, hk, hl⟩
    have h1 := passes_both prg b len u chi hchi x t k hk
    have h2 := passes_both prg b len u chi hchi x t l hl
    rw [hY] at h1
    rw [hZ] at h2
    obtain ⟨a, ha, ha'⟩ := span_val chi Y (by omega)
    obtain ⟨d, hd, hd'⟩ := span_val chi Z (by omega)
    rw [h1, Option.some.injEq] at ha
    rw [h2, Option.some.injEq] at hd
    rw [span_sum_xor chi Y Z (by omega) (by omega), ← ha', ← hd', ← ha, ← hd, ← Gf.val64_add, BitVec.xor_self]
    exact Gf.val64_zero
  intro chi hchi v v' hv hv'
  have k1 := key _ (by simpa using hchi) hv
  have k2 := key _ (by simpa using hchi) hv'
  have hD : (Y.zipWith (· ^^^ ·) Z).length = 2 * len := by simp; omega
  rw [sum_set _ _ (by omega) p (by omega)] at k1 k2
  have k3 : Gf.val64 ((chi.getD p 0 ^^^ v) ^^^ (chi.getD p 0 ^^^ v')) * Gf.val64 ((Y.zipWith (· ^^^ ·) Z).getD p 0) = 0 := by
    have two : ∀ a : AdjoinRoot Gf.f64, a + a = 0 := by
      intro a
      rw [← two_mul, ← map_ofNat (AdjoinRoot.mk Gf.f64) 2, Gf.two_eq_zero, map_zero, zero_mul]
    rw [Gf.val64_add, add_mul]
    linear_combination k1 + k2 - two (((chi.zip (Y.zipWith (· ^^^ ·) Z)).map fun q => Gf.val64 q.1 * Gf.val64 q.2).sum)
  rw [← Gf.val64_mul] at k3
  have k4 := Gf.val64_inj (k3.trans Gf.val64_zero.symm)
  have k5 := (Gf.C59_no_zero_divisors _ _ 0 0).1 k4
  have hDp : (Y.zipWith (· ^^^ ·) Z).getD p 0 = Y.getD p 0 ^^^ Z.getD p 0 := by
    rw [List.getD_eq_getElem _ _ (by omega), List.getElem_zipWith, List.getD_eq_getElem _ _ (by omega), List.getD_eq_getElem _ _ (by omega)]
  have hx : ∀ a c : BitVec 64, a ^^^ c = 0 → a = c := by
    intro a c h
    have : a ^^^ c ^^^ c = c := by rw [h]; simp
    rwa [BitVec.xor_assoc, BitVec.xor_self, BitVec.xor_zero] at this
  rcases k5 with h | h
  · have h' := hx _ _ h
    have : chi.getD p 0 ^^^ (chi.getD p 0 ^^^ v) = chi.getD p 0 ^^^ (chi.getD p 0 ^^^ v') := by rw [h']
    rwa [← BitVec.xor_assoc, ← BitVec.xor_assoc, BitVec.xor_self, BitVec.zero_xor, BitVec.zero_xor] at this
  · rw [hDp] at h
    exact absurd (hx _ _ h) hpne

/-- A base OT, a generator and a message that is honest except for one flipped bit in column 5. -/
def exBase : Base := ⟨fun k => BitVec.ofNat 128 k, fun k => BitVec.ofNat 128 (k + 7), fun k => k % 3 == 0⟩
def exPrg : Prg := fun s n i => s * 3 + BitVec.ofNat 128 (n + i)
def exCheat : Nat → Mat := fun i k => uMsg exPrg exBase 2 [true, false, true] i k ^^^ (if k = 5 ∧ i = 1 then 8 else 0)

example : ([true, false, true] : List Bool) ≠ [] ∧ (List.replicate 64 true).length = 64 ∧
    (List.replicate 2 (5 : BitVec 64)).length = 2 * (([true, false, true].length + 64 + 127) / 128) := by decide
example : ¬ SameChoices exPrg exBase 2 exCheat 5 6 := by
  intro h
  exact absurd (h 1 (by decide)) (by decide +kernel)
/-- An honest message is never detected, so the conclusion of `C74_kos_sound` is about reachable challenges. -/
example (chi : List (BitVec 64)) (h : chi.length = 4) :
    Undetected exPrg exBase 2 (uMsg exPrg exBase 2 [true, false, true]) 5 6 chi := by
  obtain ⟨x, t, hx, ht, -⟩ := check_honest exPrg exBase 2 [true, false, true] chi h
  refine ⟨x, t, fun v => ?_, fun v => ?_⟩
  · obtain ⟨x', t', hx', ht', hc⟩ := check_honest exPrg (setS exBase 5 v) 2 [true, false, true] chi h
    have e1 : x = x' := Option.some.inj (hx.symm.trans hx')
    have e2 : t = t' := funext fun k => Option.some.inj ((ht k).symm.trans (ht' k))
    rw [e1, e2]
    exact hc 5
  · obtain ⟨x', t', hx', ht', hc⟩ := check_honest exPrg (setS exBase 6 v) 2 [true, false, true] chi h
    have e1 : x = x' := Option.some.inj (hx.symm.trans hx')
    have e2 : t = t' := funext fun k => Option.some.inj ((ht k).symm.trans (ht' k))
    rw [e1, e2]
    exact hc 6

end Yacl.OtExt
