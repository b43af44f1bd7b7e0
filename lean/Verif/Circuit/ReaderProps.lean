import Verif.Circuit.ExecProps
import Mathlib.Data.List.Basic
import Mathlib.Data.List.Induction
/-! C31 (SHA-256 input) and C71 (Bristol reader). -/
namespace Yacl.Circuit

/-! ### C31 -/

/-- Big-endian bytes. -/
def be : Nat → Nat → List (BitVec 8)
  | 0, _ => []
  | k + 1, n => be k (n / 256) ++ [BitVec.ofNat 8 n]

/-- FIPS 180-4 section 5.1.1 for a message that fits one block: the message, a one bit, zeros, the 64-bit length in bits. -/
def fipsBlock (m : List (BitVec 8)) : List (BitVec 8) :=
  m ++ [0x80] ++ List.replicate (55 - m.length) 0 ++ be 8 (8 * m.length)

/-- FIPS 180-4 section 5.3.3: the initial hash value H0 .. H7. -/
def fipsH : List Nat :=
  [0x6a09e667, 0xbb67ae85, 0x3c6ef372, 0xa54ff53a, 0x510e527f, 0x9b05688c, 0x1f83d9ab, 0x5be0cd19]

theorem le_eq (k : Nat) : ∀ n, le k n = (be k n).reverse := by
  induction k with
  | zero => intro n; rfl
  | succ k ih => intro n; simp [le, be, ih]

theorem le_length (k : Nat) : ∀ n, (le k n).length = k := by
  induction k with
  | zero => intro n; rfl
  | succ k ih => intro n; simp [le, ih]

theorem blit_eq (a b c d : List (BitVec 8)) (off : Nat) (h1 : a.length = off) (h2 : d.length = b.length) :
    blit (a ++ b ++ c) off d = .ok (a ++ d ++ c) := by
  subst h1
  rw [blit, if_pos (by simp [h2])]
  congr 1
  rw [h2, ← List.length_append, List.drop_left, List.append_assoc a b c, List.take_left]

/-- **C31**: for a message of at most 55 bytes the bytes given to the circuit are the FIPS block followed by the initial hash
value, both in the circuit's reversed byte order; a longer message is refused. -/
theorem C31_sha256_input (m : List (BitVec 8)) :
    prepareSha256Input m =
      if m.length ≤ 55 then .ok ((fipsBlock m).reverse ++ (fipsH.flatMap (be 4)).reverse) else .throw := by
  have hH : sha256Init = (fipsH.flatMap (be 4)).reverse := by decide
  have hHl : (fipsH.flatMap (be 4)).reverse.length = 32 := by decide
  rw [prepareSha256Input]
  by_cases h : m.length ≤ 55
  · have e1 : (if (m.length + 1 + 8) % 64 = 0 then 0 else 64 - (m.length + 1 + 8) % 64) = 55 - m.length := by
      split <;> omega
    simp only [e1, h, if_true, hH]
    rw [if_pos (by omega), hHl]
    generalize (fipsH.flatMap (be 4)).reverse = H at hHl
    have r0 : List.replicate (m.length + 1 + (55 - m.length) + 8 + 32) (0 : BitVec 8) =
        [] ++ List.replicate 8 0 ++ (List.replicate (55 - m.length) 0 ++ ([0] ++ (List.replicate m.length 0 ++ List.replicate 32 0))) := by
      rw [List.nil_append]
      have : [(0 : BitVec 8)] = List.replicate 1 0 := rfl
      rw [this, List.replicate_append_replicate, List.replicate_append_replicate, List.replicate_append_replicate,
        List.replicate_append_replicate]
      congr 1; omega
    rw [r0, blit_eq [] _ _ _ 0 rfl (by simp [le_length]), bind_ok]
    have r1 : [] ++ le 8 (m.length * 8) ++ (List.replicate (55 - m.length) 0 ++ ([0] ++ (List.replicate m.length 0 ++ List.replicate 32 0))) =
        (le 8 (m.length * 8) ++ List.replicate (55 - m.length) 0) ++ [0] ++ (List.replicate m.length 0 ++ List.replicate 32 0) := by
      simp [List.append_assoc]
    rw [r1, blit_eq _ [0] _ [0x80] _ (by simp [le_length]) rfl, bind_ok]
    have r2 : (le 8 (m.length * 8) ++ List.replicate (55 - m.length) 0) ++ [0x80] ++ (List.replicate m.length 0 ++ List.replicate 32 0) =
        (le 8 (m.length * 8) ++ List.replicate (55 - m.length) 0 ++ [0x80]) ++ List.replicate m.length 0 ++ List.replicate 32 0 := by
      simp [List.append_assoc]
    rw [r2, blit_eq _ _ _ _ _ (by simp [le_length]; omega) (by simp), bind_ok]
    have r3 : (le 8 (m.length * 8) ++ List.replicate (55 - m.length) 0 ++ [0x80]) ++ m.reverse ++ List.replicate 32 0 =
        ((le 8 (m.length * 8) ++ List.replicate (55 - m.length) 0 ++ [0x80]) ++ m.reverse) ++ List.replicate 32 0 ++ [] := by
      simp
    rw [r3, blit_eq _ _ _ _ _ (by simp [le_length]; omega) (by simp [hHl])]
    congr 1
    simp [fipsBlock, le_eq, Nat.mul_comm]
  · rw [if_neg h]
    have : ¬ (m.length + 1 + (if (m.length + 1 + 8) % 64 = 0 then 0 else 64 - (m.length + 1 + 8) % 64) + 8 = 64) := by
      split <;> omega
    simp only [this, if_false]

example : (prepareSha256Input [0x61, 0x62, 0x63]).bind (fun r => .ok (r.take 8, r.drop 60 |>.take 4)) =
    .ok ([24, 0, 0, 0, 0, 0, 0, 0], [0x80, 0x63, 0x62, 0x61]) := by decide +kernel
example : prepareSha256Input (List.replicate 56 7) = .throw := by decide +kernel

/-! ### C71: specification -/

/-- A number in decimal. -/
def dec (n : Nat) : List Char := Nat.toDigits 10 n

/-- Words separated by single blanks. -/
def words : List (List Char) → List Char
  | [] => []
  | [w] => w
  | w :: ws => w ++ ' ' :: words ws

/-- Name of an operation in the format. -/
def opName : Op → List Char
  | .xor => ['X', 'O', 'R']
  | .and => ['A', 'N', 'D']
  | .inv => ['I', 'N', 'V']
  | .eq => ['E', 'Q']
  | .eqw => ['E', 'Q', 'W']
  | .mand => ['M', 'A', 'N', 'D']

/-- A gate line: number of inputs and outputs, the wires, the operation. -/
def gateText (g : Gate) : List Char :=
  words ([dec g.iw.length, dec g.ow.length] ++ g.iw.map dec ++ g.ow.map dec ++ [opName g.op])

/-- The Bristol Fashion file of a circuit. -/
def bristol (c : Circ) : List Char :=
  words [dec c.gates.length, dec c.nw] ++ '\n' :: (words (dec c.niw.length :: c.niw.map dec) ++ '\n' ::
    (words (dec c.now.length :: c.now.map dec) ++ '\n' :: ('\n' :: c.gates.flatMap (fun g => gateText g ++ ['\n']))))

/-- The arities the format prescribes. -/
def Gate.FmtArity (g : Gate) : Prop :=
  match g.op with
  | .xor | .and => g.iw.length = 2 ∧ g.ow.length = 1
  | .inv | .eq | .eqw => g.iw.length = 1 ∧ g.ow.length = 1
  | .mand => g.iw.length = 2 * g.ow.length

/-- A circuit whose numbers fit the 32-bit fields. -/
structure Circ.Fits (c : Circ) : Prop where
  nw : c.nw < 2 ^ 32
  ng : c.gates.length < 2 ^ 32
  niv : c.niw.length < 2 ^ 32 - 1
  nov : c.now.length < 2 ^ 32 - 1
  niw : ∀ n ∈ c.niw, n < 2 ^ 32
  now : ∀ n ∈ c.now, n < 2 ^ 32
  gates : ∀ g ∈ c.gates, g.FmtArity ∧ g.iw.length + g.ow.length + 2 < 2 ^ 32 ∧ (∀ n ∈ g.iw, n < 2 ^ 32) ∧ ∀ n ∈ g.ow, n < 2 ^ 32

/-! ### C71: proofs -/

theorem dec_digit {n : Nat} {c : Char} (h : c ∈ dec n) : '0' ≤ c ∧ c ≤ '9' := by
  have := Nat.isDigit_of_mem_toDigits (by decide) (by decide) h
  simp only [Char.isDigit, Bool.and_eq_true, decide_eq_true_eq] at this
  exact this

theorem digitsVal_eq : ∀ (l : List Char) (acc : Nat), (∀ c ∈ l, '0' ≤ c ∧ c ≤ '9') →
    digitsVal l acc = some (Nat.ofDigitChars 10 l acc) := by
  intro l
  induction l with
  | nil => intro acc _; simp [digitsVal, Nat.ofDigitChars_nil]
  | cons c l ih =>
    intro acc h
    rw [digitsVal, if_pos (h c (by simp)), ih _ (fun d hd => h d (by simp [hd])), Nat.ofDigitChars_cons, Nat.mul_comm]

theorem digit_not_space {c : Char} (h : '0' ≤ c ∧ c ≤ '9') : isSpace c = false ∧ c ≠ '+' ∧ c ≠ ' ' ∧ c ≠ '\n' := by
  have h1 : (48 : Nat) ≤ c.toNat := h.1
  have hne : ∀ d : Char, d.toNat < 48 → c ≠ d := by
    intro d hd e; subst e; omega
  refine ⟨?_, hne _ (by decide), hne _ (by decide), hne _ (by decide)⟩
  simp [isSpace, hne ' ' (by decide), hne '\t' (by decide), hne '\n' (by decide), hne '\x0b' (by decide),
    hne '\x0c' (by decide), hne '\r' (by decide)]

theorem dropWhile_none {l : List Char} (h : ∀ c ∈ l, isSpace c = false) : l.dropWhile isSpace = l := by
  cases l with
  | nil => rfl
  | cons c l => simp [List.dropWhile, h c (by simp)]

theorem atoi_dec (n : Nat) (h : n < 2 ^ 32) : atoi (dec n) = some n := by
  have hd : ∀ c ∈ dec n, isSpace c = false := fun c hc => (digit_not_space (dec_digit hc)).1
  have hne : dec n ≠ [] := Nat.toDigits_ne_nil
  have hh : (dec n).head? ≠ some '+' := by
    intro e
    have hm : '+' ∈ dec n := List.mem_of_head? e
    exact (digit_not_space (dec_digit hm)).2.1 rfl
  have hv : digitsVal (dec n) 0 = some n := by
    rw [digitsVal_eq _ _ (fun c hc => dec_digit hc)]
    exact congrArg some (Nat.ofDigitChars_toDigits (by decide) (by decide))
  rw [atoi]
  simp only [dropWhile_none hd, dropWhile_none (fun c hc => hd c (List.mem_reverse.mp hc)), List.reverse_reverse, hh,
    if_false, hne, hv, h, if_true]

theorem atoiE_dec (n : Nat) (h : n < 2 ^ 32) : atoiE (dec n) = .ok n := by simp [atoiE, atoi_dec n h]

/-- Words have no blank. -/
theorem splitSp_word : ∀ (w : List Char), ' ' ∉ w → splitSp w = [w] := by
  intro w
  induction w with
  | nil => intro _; rfl
  | cons c w ih =>
    intro h
    simp only [List.mem_cons, not_or] at h
    rw [splitSp, if_neg (fun e => h.1 e.symm), ih h.2]

theorem splitSp_cons : ∀ (w rest : List Char), ' ' ∉ w → splitSp (w ++ ' ' :: rest) = w :: splitSp rest := by
  intro w
  induction w with
  | nil => intro rest _; simp [splitSp]
  | cons c w ih =>
    intro rest h
    simp only [List.mem_cons, not_or] at h
    rw [List.cons_append, splitSp, if_neg (fun e => h.1 e.symm), ih rest h.2]

theorem splitSp_words : ∀ (ws : List (List Char)), ws ≠ [] → (∀ w ∈ ws, ' ' ∉ w) → splitSp (words ws) = ws := by
  intro ws
  induction ws with
  | nil => intro h; exact absurd rfl h
  | cons w ws ih =>
    intro _ h
    cases ws with
    | nil => exact splitSp_word w (h w (by simp))
    | cons v vs =>
      rw [words, splitSp_cons _ _ (h w (by simp)), ih (by simp) (fun x hx => h x (by simp [hx]))]
      intro e; simp at e

theorem words_no_nl : ∀ (ws : List (List Char)), (∀ w ∈ ws, '\n' ∉ w) → '\n' ∉ words ws := by
  intro ws
  induction ws with
  | nil => intro _; simp [words]
  | cons w ws ih =>
    intro h
    cases ws with
    | nil => exact h w (by simp)
    | cons v vs =>
      rw [words]
      · simp only [List.mem_append, List.mem_cons, not_or]
        exact ⟨h w (by simp), by decide, ih (fun x hx => h x (by simp [hx]))⟩
      · intro e; simp at e

theorem splitLine_eq : ∀ (l rest : List Char), '\n' ∉ l → splitLine (l ++ '\n' :: rest) = (l, rest, true) := by
  intro l
  induction l with
  | nil => intro rest _; simp [splitLine]
  | cons c l ih =>
    intro rest h
    simp only [List.mem_cons, not_or] at h
    rw [List.cons_append, splitLine, if_neg (fun e => h.1 e.symm), ih rest h.2]

theorem getLine_eq (l rest ret : List Char) (h : '\n' ∉ l) : getLine ⟨l ++ '\n' :: rest, false⟩ ret = (⟨rest, false⟩, l) := by
  simp [getLine, splitLine_eq l rest h]

theorem dec_clean (n : Nat) : ' ' ∉ dec n ∧ '\n' ∉ dec n :=
  ⟨fun h => (digit_not_space (dec_digit h)).2.2.1 rfl, fun h => (digit_not_space (dec_digit h)).2.2.2 rfl⟩

theorem opName_clean (o : Op) : ' ' ∉ opName o ∧ '\n' ∉ opName o := by cases o <;> decide

theorem numbers_eq : ∀ (xs : List Nat) (pre post : List (List Char)) (start : Nat), pre.length = start → (∀ n ∈ xs, n < 2 ^ 32) →
    numbers (pre ++ xs.map dec ++ post) start xs.length = .ok xs := by
  intro xs
  induction xs with
  | nil => intro pre post start _ _; rfl
  | cons x xs ih =>
    intro pre post start hl h
    have ht : tok (pre ++ (x :: xs).map dec ++ post) start = .ok (dec x) := by
      subst hl; simp [tok]
    rw [List.length_cons, numbers, ht, bind_ok, atoiE_dec x (h x (by simp)), bind_ok]
    have := ih (pre ++ [dec x]) post (start + 1) (by simp [hl]) (fun n hn => h n (by simp [hn]))
    rw [List.append_assoc pre, List.singleton_append] at this
    rw [List.map_cons, this]; rfl

theorem countedLine_eq (xs : List Nat) (hl : xs.length < 2 ^ 32 - 1) (h : ∀ n ∈ xs, n < 2 ^ 32) :
    countedLine (words (dec xs.length :: xs.map dec)) = .ok xs := by
  have hs : splitSp (words (dec xs.length :: xs.map dec)) = dec xs.length :: xs.map dec := by
    apply splitSp_words _ (by simp)
    intro w hw
    rcases List.mem_cons.mp hw with rfl | hw
    · exact (dec_clean _).1
    · obtain ⟨n, _, rfl⟩ := List.mem_map.mp hw; exact (dec_clean n).1
  have hn := numbers_eq xs [dec xs.length] [] 1 rfl h
  rw [List.append_nil, List.singleton_append] at hn
  rw [countedLine, hs]
  simp only [tok, List.getElem?_cons_zero, bind_ok, atoiE_dec _ (show xs.length < 2 ^ 32 by omega)]
  rw [if_pos (by simp; omega), hn]

theorem gateOp_eq (g : Gate) (h : g.FmtArity) (hb : g.iw.length + g.ow.length + 2 < 2 ^ 32) :
    gateOp (opName g.op) g.iw.length g.ow.length = .ok g.op := by
  rcases g with ⟨iw, ow, op⟩
  cases op <;> simp only [Gate.FmtArity] at h <;> simp [gateOp, opName, h]
  have : ow.length * 2 < 4294967296 := by simp at hb; omega
  omega

theorem gateLine_eq (g : Gate) (h : g.FmtArity) (hb : g.iw.length + g.ow.length + 2 < 2 ^ 32)
    (hi : ∀ n ∈ g.iw, n < 2 ^ 32) (ho : ∀ n ∈ g.ow, n < 2 ^ 32) : gateLine (gateText g) = .ok g := by
  have hs : splitSp (gateText g) = [dec g.iw.length, dec g.ow.length] ++ g.iw.map dec ++ g.ow.map dec ++ [opName g.op] := by
    apply splitSp_words _ (by simp)
    intro w hw
    simp only [List.mem_append, List.mem_cons, List.mem_map, List.not_mem_nil, or_false] at hw
    rcases hw with (((rfl | rfl) | ⟨n, _, rfl⟩) | ⟨n, _, rfl⟩) | rfl
    · exact (dec_clean _).1
    · exact (dec_clean _).1
    · exact (dec_clean _).1
    · exact (dec_clean _).1
    · exact (opName_clean _).1
  have h0 : tok (splitSp (gateText g)) 0 = .ok (dec g.iw.length) := by rw [hs]; rfl
  have h1 : tok (splitSp (gateText g)) 1 = .ok (dec g.ow.length) := by rw [hs]; rfl
  have h2 : tok (splitSp (gateText g)) (g.iw.length + g.ow.length + 2) = .ok (opName g.op) := by
    rw [hs, tok, List.getElem?_append_right (by simp)]
    have : g.iw.length + g.ow.length + 2 - ([dec g.iw.length, dec g.ow.length] ++ g.iw.map dec ++ g.ow.map dec).length = 0 := by
      simp
    rw [this]; rfl
  have h3 : numbers (splitSp (gateText g)) 2 g.iw.length = .ok g.iw := by
    rw [hs]
    have := numbers_eq g.iw [dec g.iw.length, dec g.ow.length] (g.ow.map dec ++ [opName g.op]) 2 rfl hi
    rw [← this]; simp [List.append_assoc]
  have h4 : numbers (splitSp (gateText g)) (2 + g.iw.length) g.ow.length = .ok g.ow := by
    rw [hs]
    exact numbers_eq g.ow ([dec g.iw.length, dec g.ow.length] ++ g.iw.map dec) [opName g.op] (2 + g.iw.length)
      (by simp; omega) ho
  have h5 : (g.iw.length + g.ow.length + 2) % 2 ^ 32 = g.iw.length + g.ow.length + 2 := Nat.mod_eq_of_lt hb
  have h6 : (2 + g.iw.length) % 2 ^ 32 = 2 + g.iw.length := Nat.mod_eq_of_lt (by omega)
  have h7 : g.iw.length + g.ow.length + 2 < (splitSp (gateText g)).length := by rw [hs]; simp
  rw [gateLine]
  simp only [h0, h1, bind_ok, atoiE_dec _ (show g.iw.length < 2 ^ 32 by omega),
    atoiE_dec _ (show g.ow.length < 2 ^ 32 by omega), h5, h6, h7, if_true, h2, h3, h4, gateOp_eq g h hb, pure_ok]

theorem readGates_eq : ∀ (gs : List Gate) (ret : List Char),
    (∀ g ∈ gs, g.FmtArity ∧ g.iw.length + g.ow.length + 2 < 2 ^ 32 ∧ (∀ n ∈ g.iw, n < 2 ^ 32) ∧ ∀ n ∈ g.ow, n < 2 ^ 32) →
    readGates gs.length ⟨gs.flatMap (fun g => gateText g ++ ['\n']), false⟩ ret = .ok gs := by
  intro gs
  induction gs with
  | nil => intro ret _; rfl
  | cons g gs ih =>
    intro ret h
    obtain ⟨a, b, c, d⟩ := h g (by simp)
    have hnl : '\n' ∉ gateText g := by
      apply words_no_nl
      intro w hw
      simp only [List.mem_append, List.mem_cons, List.mem_map, List.not_mem_nil, or_false] at hw
      rcases hw with (((rfl | rfl) | ⟨n, _, rfl⟩) | ⟨n, _, rfl⟩) | rfl
      · exact (dec_clean _).2
      · exact (dec_clean _).2
      · exact (dec_clean _).2
      · exact (dec_clean _).2
      · exact (opName_clean _).2
    rw [List.length_cons, readGates, List.flatMap_cons, List.append_assoc, List.singleton_append, getLine_eq _ _ _ hnl]
    simp only [gateLine_eq g a b c d, bind_ok]
    rw [ih (gateText g) (fun g' hg' => h g' (by simp [hg']))]; rfl

theorem nums_no_nl (x : Nat) (xs : List Nat) : '\n' ∉ words (dec x :: xs.map dec) := by
  apply words_no_nl
  intro w hw
  rcases List.mem_cons.mp hw with rfl | hw
  · exact (dec_clean _).2
  · obtain ⟨n, _, rfl⟩ := List.mem_map.mp hw; exact (dec_clean n).2

/-- **C71**: reading the Bristol file of a circuit gives that circuit, for every circuit whose numbers fit 32 bits. -/
theorem C71_read_back (c : Circ) (h : c.Fits) : readCircuit (bristol c) = .ok c := by
  have hs : splitSp (words [dec c.gates.length, dec c.nw]) = [dec c.gates.length, dec c.nw] := by
    apply splitSp_words _ (by simp)
    intro w hw
    simp only [List.mem_cons, List.not_mem_nil, or_false] at hw
    rcases hw with rfl | rfl <;> exact (dec_clean _).1
  have hnl := nums_no_nl c.gates.length [c.nw]
  rw [readCircuit, bristol]
  rw [List.map_cons, List.map_nil] at hnl
  simp only [getLine_eq _ _ _ hnl, getLine_eq _ _ _ (nums_no_nl c.niw.length c.niw),
    getLine_eq _ _ _ (nums_no_nl c.now.length c.now), hs, List.length_cons, List.length_nil]
  have hskip := getLine_eq [] (c.gates.flatMap (fun g => gateText g ++ ['\n'])) [] (by simp)
  rw [List.nil_append] at hskip
  simp only [tok, List.getElem?_cons_zero, List.getElem?_cons_succ, bind_ok, atoiE_dec _ h.nw, atoiE_dec _ h.ng, hskip,
    countedLine_eq _ h.niv h.niw, countedLine_eq _ h.nov h.now, readGates_eq _ _ h.gates, pure_ok]
  simp

/-- Two circuits have the same file only if they are equal. -/
theorem C71_files_differ (c d : Circ) (hc : c.Fits) (hd : d.Fits) (h : bristol c = bristol d) : c = d := by
  have := C71_read_back c hc
  rw [h, C71_read_back d hd] at this
  cases this; rfl

theorem bind_ok_inv {α β : Type} {x : Res α} {f : α → Res β} {b : β} (h : (x >>= f) = .ok b) : ∃ a, x = .ok a ∧ f a = .ok b := by
  cases x with
  | ok a => exact ⟨a, rfl, h⟩
  | throw => cases h
  | ub => cases h

theorem atoi_lt {t : List Char} {m : Nat} (h : atoi t = some m) : m < 2 ^ 32 := by
  rw [atoi] at h
  generalize (if (((t.dropWhile isSpace).reverse.dropWhile isSpace).reverse).head? = some '+' then
    (((t.dropWhile isSpace).reverse.dropWhile isSpace).reverse).tail else
    (((t.dropWhile isSpace).reverse.dropWhile isSpace).reverse)) = u at h
  by_cases hu : u = []
  · simp [hu] at h
  · rw [if_neg hu] at h
    generalize digitsVal u 0 = d at h
    cases d with
    | none => cases h
    | some n =>
      by_cases hn : n < 2 ^ 32
      · simp only [hn, if_true] at h; cases h; exact hn
      · simp only [hn, if_false] at h; cases h

theorem numbers_length (l : List (List Char)) : ∀ (n start : Nat) (xs : List Nat), numbers l start n = .ok xs →
    xs.length = n ∧ ∀ x ∈ xs, x < 2 ^ 32 := by
  intro n
  induction n with
  | zero => intro start xs h; simp [numbers] at h; subst h; simp
  | succ n ih =>
    intro start xs h
    rw [numbers] at h
    obtain ⟨t, _, h⟩ := bind_ok_inv h
    obtain ⟨x, hx, h⟩ := bind_ok_inv h
    obtain ⟨ys, hy, h⟩ := bind_ok_inv h
    obtain ⟨h1, h2⟩ := ih _ _ hy
    cases h
    refine ⟨by simp [h1], ?_⟩
    intro y hy
    rcases List.mem_cons.mp hy with rfl | hy
    · rw [atoiE] at hx
      split at hx
      · rename_i m hm
        cases hx
        exact atoi_lt hm
      · simp at hx
    · exact h2 y hy

theorem guard_inv {p : Prop} [Decidable p] {o op : Op} (h : (if p then Res.ok o else .throw) = .ok op) : p ∧ o = op := by
  by_cases hp : p
  · rw [if_pos hp] at h; cases h; exact ⟨hp, rfl⟩
  · rw [if_neg hp] at h; cases h

theorem gateOp_arity {s : List Char} {iw ow : List Nat} {op : Op} (h : gateOp s iw.length ow.length = .ok op)
    (hm : op ≠ .mand) : Gate.Arity ⟨iw, ow, op⟩ := by
  rw [gateOp] at h
  split at h
  · obtain ⟨hp, rfl⟩ := guard_inv h; exact ⟨hp.2, hp.1⟩
  split at h
  · obtain ⟨hp, rfl⟩ := guard_inv h; exact ⟨hp.2, hp.1⟩
  split at h
  · obtain ⟨hp, rfl⟩ := guard_inv h; exact ⟨hp.2, hp.1⟩
  split at h
  · obtain ⟨hp, rfl⟩ := guard_inv h; exact ⟨hp.2, hp.1⟩
  split at h
  · obtain ⟨hp, rfl⟩ := guard_inv h; exact ⟨hp.2, hp.1⟩
  split at h
  · obtain ⟨hp, rfl⟩ := guard_inv h; exact absurd rfl hm
  · cases h

theorem gateLine_arity {ret : List Char} {g : Gate} (h : gateLine ret = .ok g) : g.op ≠ .mand → g.Arity := by
  rw [gateLine] at h
  obtain ⟨t0, _, h⟩ := bind_ok_inv h
  obtain ⟨niw, _, h⟩ := bind_ok_inv h
  obtain ⟨t1, _, h⟩ := bind_ok_inv h
  obtain ⟨now, _, h⟩ := bind_ok_inv h
  split at h
  · obtain ⟨iw, hiw, h⟩ := bind_ok_inv h
    obtain ⟨ow, how, h⟩ := bind_ok_inv h
    obtain ⟨t2, _, h⟩ := bind_ok_inv h
    obtain ⟨op, hop, h⟩ := bind_ok_inv h
    cases h
    have h1 := (numbers_length _ _ _ _ hiw).1
    have h2 := (numbers_length _ _ _ _ how).1
    intro hm
    subst h1 h2
    exact gateOp_arity hop hm
  · cases h

/-- Whatever the file, when reading succeeds every gate other than MAND has the number of wires its operation needs, so
executing it never looks for a missing wire number; and the number of gates is the one announced. -/
theorem C71_arity (file : List Char) (c : Circ) (h : readCircuit file = .ok c) : ∀ g ∈ c.gates, g.op ≠ .mand → g.Arity := by
  rw [readCircuit] at h
  dsimp only at h
  split at h
  · obtain ⟨t0, _, h⟩ := bind_ok_inv h
    obtain ⟨ng, _, h⟩ := bind_ok_inv h
    obtain ⟨t1, _, h⟩ := bind_ok_inv h
    obtain ⟨nw, _, h⟩ := bind_ok_inv h
    obtain ⟨niw, _, h⟩ := bind_ok_inv h
    obtain ⟨now, _, h⟩ := bind_ok_inv h
    obtain ⟨gs, hgs, h⟩ := bind_ok_inv h
    cases h
    show ∀ g ∈ gs, _
    generalize (getLine _ []).1 = s at hgs
    generalize (getLine _ []).2 = r at hgs
    clear * - hgs
    induction ng generalizing s r gs with
    | zero => simp [readGates] at hgs; subst hgs; simp
    | succ n ih =>
      rw [readGates] at hgs
      dsimp only at hgs
      obtain ⟨g, hg, hgs⟩ := bind_ok_inv hgs
      obtain ⟨gs', hgs', hgs⟩ := bind_ok_inv hgs
      cases hgs
      intro g' hg'
      rcases List.mem_cons.mp hg' with rfl | hg'
      · exact gateLine_arity hg
      · exact ih _ _ _ hgs' g' hg'
  · cases h

/-- A file cut after a gate line without its line end. -/
def truncated : List Char := "3 5\n1 2\n1 1\n\n2 1 0 1 2 AND".toList

/-- **C71** fails on truncated files: the file announces 3 gates but is cut right after the first one, and instead of an
error the reader returns a circuit in which that gate occurs three times. -/
theorem C71_truncated_violated : readCircuit truncated =
    .ok ⟨5, [2], [1], [⟨[0, 1], [2], .and⟩, ⟨[0, 1], [2], .and⟩, ⟨[0, 1], [2], .and⟩]⟩ := by decide +kernel

/-- With the line end in place the cut is noticed. -/
theorem C71_truncated_line_refused : readCircuit (truncated ++ ['\n']) = .throw := by decide +kernel

/-- A gate line of one word makes the reader index past the words of the line. -/
theorem C71_short_line_violated : readCircuit "1 3\n1 2\n1 1\n\n2\n".toList = .ub := by decide +kernel

/-- A wire count that wraps 32 bits passes the length check and makes the reader index past the words of the line. -/
theorem C71_count_wraps_violated : ∃ ret, gateLine ret = .ub ∧ ret = "4294967295 1 0 1 2 3".toList := by
  refine ⟨_, ?_, rfl⟩
  decide +kernel

example : readCircuit "1 3\n1 2\n1 1\n\n2 1 0 1 2 XOR\n".toList = .ok ⟨3, [2], [1], [⟨[0, 1], [2], .xor⟩]⟩ := by decide +kernel

example : demo.Fits := by
  refine ⟨by decide, by decide, by decide, by decide, by decide, by decide, ?_⟩
  intro g hg
  have : ∀ g ∈ demo.gates, ((g.op = .xor ∨ g.op = .and) ∧ g.iw.length = 2 ∧ g.ow.length = 1 ∨
      (g.op = .inv ∨ g.op = .eq ∨ g.op = .eqw) ∧ g.iw.length = 1 ∧ g.ow.length = 1) ∧
      g.iw.length + g.ow.length + 2 < 2 ^ 32 ∧ (∀ n ∈ g.iw, n < 2 ^ 32) ∧ ∀ n ∈ g.ow, n < 2 ^ 32 := by decide
  obtain ⟨h, h'⟩ := this g hg
  refine ⟨?_, h'⟩
  rcases h with ⟨h | h, h'⟩ | ⟨h | h | h, h'⟩ <;> simp [Gate.FmtArity, h, h']

end Yacl.Circuit
