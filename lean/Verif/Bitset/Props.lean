import Verif.Bitset.Queries

/-! Properties C86 and C87: every program over bitset variables behaves like the same program over lists of bits. -/
namespace Yacl.Bitset
variable {w : Nat}

/-- The four operators `&=`, `|=`, `^=`, `-=`. -/
inductive BinOp | and | or | xor | diff
deriving DecidableEq

/-- The statements of a program over bitset variables `0, 1, 2, …`; the first argument is the variable changed. -/
inductive Cmd (w : Nat)
  | new (d nbits : Nat) (v : BitVec 128)
  | parse (d : Nat) (str : List Char) (pos n : Nat)
  | assign (d s : Nat)
  | pushBack (d : Nat) (v : Bool)
  | popBack (d : Nat)
  | resize (d n : Nat) (v : Bool)
  | clear (d : Nat)
  | appendBlock (d : Nat) (x : BitVec w)
  | appendBlocks (d : Nat) (xs : List (BitVec w))
  | append (d s : Nat)
  | set (d pos : Nat) (v : Bool)
  | flip (d pos : Nat)
  | setAll (d : Nat)
  | resetAll (d : Nat)
  | flipAll (d : Nat)
  | setRange (d pos len : Nat) (v : Bool)
  | flipRange (d pos len : Nat)
  | shl (d k : Nat)
  | shr (d k : Nat)
  | bin (o : BinOp) (d s : Nat)

/-- Change one variable. -/
def put {α : Type} (e : Nat → α) (d : Nat) (x : α) : Nat → α := fun v => if v = d then x else e v

/-- dynamic_bitset.h: the member functions of the public interface, on bitset variables. -/
def step (e : Nat → BS w) : Cmd w → Option (Nat → BS w)
  | .new d nbits v => some (put e d (mk nbits v))
  | .parse d str pos n => (fromStr str pos n '0' '1').map (put e d)
  | .assign d s => some (put e d (e s))
  | .pushBack d v => some (put e d (pushBack (e d) v))
  | .popBack d => some (put e d (popBack (e d)))
  | .resize d n v => some (put e d (resize (e d) n v))
  | .clear d => some (put e d (clear (e d)))
  | .appendBlock d x => some (put e d (appendBlock (e d) x))
  | .appendBlocks d xs => some (put e d (appendBlocks (e d) xs))
  | .append d s => some (put e d (if d = s then appendSelf (e d) else appendOther (e d) (e s)))
  | .set d pos v => (set1 (e d) pos v).map (put e d)
  | .flip d pos => (flip1 (e d) pos).map (put e d)
  | .setAll d => some (put e d (setAll (e d)))
  | .resetAll d => some (put e d (resetAll (e d)))
  | .flipAll d => some (put e d (flipAll (e d)))
  | .setRange d pos len v => (setRange (e d) pos len v).map (put e d)
  | .flipRange d pos len => (flipRange (e d) pos len).map (put e d)
  | .shl d k => some (put e d (shiftLeft (e d) k))
  | .shr d k => some (put e d (shiftRight (e d) k))
  | .bin .and d s => (andEq (e d) (e s)).map (put e d)
  | .bin .or d s => (orEq (e d) (e s)).map (put e d)
  | .bin .xor d s => (xorEq (e d) (e s)).map (put e d)
  | .bin .diff d s => (diffEq (e d) (e s)).map (put e d)

/-- Run a program. -/
def run (e : Nat → BS w) : List (Cmd w) → Option (Nat → BS w)
  | [] => some e
  | c :: cs => (step e c).bind fun e' => run e' cs

/-! ### Specification: the same statements on lists of bits, bit 0 first -/

/-- The operator on two bits. -/
def BinOp.bit : BinOp → Bool → Bool → Bool
  | .and, x, y => x && y
  | .or, x, y => x || y
  | .xor, x, y => x != y
  | .diff, x, y => x && !y

/-- What a statement does to the lists of bits; `none` when an argument is out of range. -/
def specStep (e : Nat → List Bool) : Cmd w → Option (Nat → List Bool)
  | .new d nbits v => some (put e d ((List.range nbits).map v.getLsbD))
  | .parse d str pos n =>
    if pos < str.length ∧ ∀ c ∈ (str.drop pos).take n, c = '0' ∨ c = '1' then
      some (put e d (((str.drop pos).take n).map fun c => decide (c = '1')).reverse)
    else none
  | .assign d s => some (put e d (e s))
  | .pushBack d v => some (put e d (e d ++ [v]))
  | .popBack d => some (put e d (e d).dropLast)
  | .resize d n v => some (put e d ((e d).take n ++ List.replicate (n - (e d).length) v))
  | .clear d => some (put e d [])
  | .appendBlock d x => some (put e d (e d ++ blockBits x))
  | .appendBlocks d xs => some (put e d (e d ++ xs.flatMap blockBits))
  | .append d s => some (put e d (e d ++ e s))
  | .set d pos v => if pos < (e d).length then some (put e d ((e d).set pos v)) else none
  | .flip d pos => if pos < (e d).length then some (put e d ((e d).set pos (!(e d).getD pos false))) else none
  | .setAll d => some (put e d (List.replicate (e d).length true))
  | .resetAll d => some (put e d (List.replicate (e d).length false))
  | .flipAll d => some (put e d ((e d).map not))
  | .setRange d pos len v =>
    if pos < (e d).length ∧ pos + len ≤ (e d).length then
      some (put e d ((e d).take pos ++ List.replicate len v ++ (e d).drop (pos + len)))
    else none
  | .flipRange d pos len =>
    if pos < (e d).length ∧ pos + len ≤ (e d).length then
      some (put e d ((e d).take pos ++ (((e d).drop pos).take len).map not ++ (e d).drop (pos + len)))
    else none
  | .shl d k => some (put e d (List.replicate (min k (e d).length) false ++ (e d).take ((e d).length - k)))
  | .shr d k => some (put e d ((e d).drop k ++ List.replicate (min k (e d).length) false))
  | .bin o d s =>
    if (e d).length = (e s).length then some (put e d (List.zipWith o.bit (e d) (e s))) else none

/-- Run a program on lists. -/
def specRun (e : Nat → List Bool) : List (Cmd w) → Option (Nat → List Bool)
  | [] => some e
  | c :: cs => (specStep e c).bind fun e' => specRun e' cs

/-! ### Proofs -/

theorem view_put (e : Nat → BS w) (d : Nat) (x : BS w) : (fun v => bits (put e d x v)) = put (fun v => bits (e v)) d (bits x) := by
  funext v
  unfold put
  split_ifs <;> rfl

theorem wf_put {e : Nat → BS w} (he : ∀ v, WF (e v)) (d : Nat) {x : BS w} (hx : WF x) : ∀ v, WF (put e d x v) := by
  intro v
  unfold put
  split_ifs
  · exact hx
  · exact he v

/-- The outcome of a step agrees with the specification, and the invariant is kept. -/
def Agree (r : Option (Nat → BS w)) (s : Option (Nat → List Bool)) : Prop :=
  (r.map fun e v => bits (e v)) = s ∧ ∀ e, r = some e → ∀ v, WF (e v)

theorem agree_total {e : Nat → BS w} (he : ∀ v, WF (e v)) (d : Nat) {x : BS w} {L : List Bool} (h : WF x ∧ bits x = L) :
    Agree (some (put e d x)) (some (put (fun v => bits (e v)) d L)) := by
  refine ⟨?_, ?_⟩
  · rw [Option.map_some, view_put, h.2]
  · intro e' h2
    cases h2
    exact wf_put he d h.1

theorem agree_part {e : Nat → BS w} (he : ∀ v, WF (e v)) (d : Nat) {o : Option (BS w)} {p : Prop} [Decidable p] {L : List Bool}
    (h1 : p → ∃ r, o = some r ∧ WF r ∧ bits r = L) (h2 : ¬ p → o = none) :
    Agree (o.map (put e d)) (if p then some (put (fun v => bits (e v)) d L) else none) := by
  by_cases hp : p
  · obtain ⟨r, h3, h4, h5⟩ := h1 hp
    rw [if_pos hp, h3]
    exact agree_total he d ⟨h4, h5⟩
  · rw [if_neg hp, h2 hp]
    exact ⟨rfl, fun e h => by cases h⟩

theorem step_agree (hw : 0 < w) (hd : w ∣ 128) {e : Nat → BS w} (he : ∀ v, WF (e v)) (c : Cmd w) :
    Agree (step e c) (specStep (fun v => bits (e v)) c) := by
  have bin : ∀ (f : BitVec w → BitVec w → BitVec w) (o : BinOp) (d s : Nat),
      (∀ x y r, r < w → (f x y).getLsbD r = o.bit (x.getLsbD r) (y.getLsbD r)) → o.bit false false = false →
      Agree ((bitOp f (e d) (e s)).map (put e d)) (specStep (w := w) (fun v => bits (e v)) (.bin o d s)) := by
    intro f o d s hf h0
    refine agree_part he d (fun h => ?_) (fun h => ?_)
    · rw [bits_length, bits_length] at h
      exact bitOp_ref hw f _ hf h0 (he d) (he s) h
    · rw [bits_length, bits_length] at h
      unfold bitOp; rw [if_neg h]
  cases c with
  | new d nbits v => exact agree_total he d (mk_ref hw hd nbits v)
  | parse d str pos n =>
    refine agree_part he d (fun h => fromStr_ref hw str pos n '0' '1' h.1 h.2) (fun h => ?_)
    unfold fromStr
    by_cases hp : pos < str.length
    · rw [if_pos hp]
      dsimp only
      rw [if_neg]
      intro hall
      apply h
      refine ⟨hp, fun c hc => ?_⟩
      rw [List.all_eq_true] at hall
      have := hall c hc
      rwa [decide_eq_true_iff] at this
    · rw [if_neg hp]
  | assign d s => exact agree_total he d ⟨he s, rfl⟩
  | pushBack d v => exact agree_total he d (pushBack_ref hw (he d) v)
  | popBack d => exact agree_total he d (popBack_ref hw (he d))
  | resize d n v =>
    have := agree_total he d (resize_ref hw (he d) n v)
    rw [← bits_length (e d)] at this
    exact this
  | clear d => exact agree_total he d (clear_ref _)
  | appendBlock d x => exact agree_total he d (appendBlock_ref hw (he d) x)
  | appendBlocks d xs => exact agree_total he d (appendBlocks_ref hw (he d) xs)
  | append d s =>
    refine agree_total he d ?_
    by_cases h : d = s
    · rw [if_pos h, ← h]; exact appendSelf_ref hw (he d)
    · rw [if_neg h]; exact appendOther_ref hw (he d) (he s)
  | set d pos v =>
    refine agree_part he d (fun h => ?_) (fun h => ?_)
    · rw [bits_length] at h; exact set1_ref hw (he d) pos v h
    · rw [bits_length] at h; unfold set1; rw [if_neg h]
  | flip d pos =>
    refine agree_part he d (fun h => ?_) (fun h => ?_)
    · rw [bits_length] at h; exact flip1_ref hw (he d) pos h
    · rw [bits_length] at h; unfold flip1; rw [if_neg h]
  | setAll d =>
    have := agree_total he d (setAll_ref hw (he d))
    rw [← bits_length (e d)] at this
    exact this
  | resetAll d =>
    have := agree_total he d (resetAll_ref (he d))
    rw [← bits_length (e d)] at this
    exact this
  | flipAll d => exact agree_total he d (flipAll_ref hw (he d))
  | setRange d pos len v =>
    refine agree_part he d (fun h => ?_) (fun h => ?_)
    · rw [bits_length] at h; exact setRange_ref hw (he d) pos len v h.1 h.2
    · rw [bits_length] at h
      unfold setRange rangeOp
      by_cases hp : (e d).n ≤ pos
      · rw [if_pos hp]
      · rw [if_neg hp, if_neg (by omega), if_pos (by omega)]
  | flipRange d pos len =>
    refine agree_part he d (fun h => ?_) (fun h => ?_)
    · rw [bits_length] at h; exact flipRange_ref hw (he d) pos len h.1 h.2
    · rw [bits_length] at h
      unfold flipRange rangeOp
      by_cases hp : (e d).n ≤ pos
      · rw [if_pos hp]
      · rw [if_neg hp, if_neg (by omega), if_pos (by omega)]
  | shl d k =>
    have := agree_total he d (shiftLeft_ref hw (he d) k)
    rw [← bits_length (e d)] at this
    exact this
  | shr d k =>
    have := agree_total he d (shiftRight_ref hw (he d) k)
    rw [← bits_length (e d)] at this
    exact this
  | bin o d s =>
    cases o with
    | and => exact bin (· &&& ·) .and d s (fun x y r _ => BitVec.getLsbD_and) rfl
    | or => exact bin (· ||| ·) .or d s (fun x y r _ => BitVec.getLsbD_or) rfl
    | xor => exact bin (· ^^^ ·) .xor d s (fun x y r _ => BitVec.getLsbD_xor) rfl
    | diff => exact bin (fun x y => x &&& ~~~ y) .diff d s (fun x y r hr => by simp [BinOp.bit, hr]) rfl

theorem run_agree (hw : 0 < w) (hd : w ∣ 128) (p : List (Cmd w)) {e : Nat → BS w} (he : ∀ v, WF (e v)) :
    Agree (run e p) (specRun (fun v => bits (e v)) p) := by
  induction p generalizing e with
  | nil => exact ⟨rfl, fun e' h => by cases h; exact he⟩
  | cons c cs ih =>
    obtain ⟨h1, h2⟩ := step_agree hw hd he c
    simp only [run, specRun]
    rw [← h1]
    cases hs : step e c with
    | none => exact ⟨rfl, fun e h => by cases h⟩
    | some e' => exact ih (h2 e' hs)

/-! ### C86 -/

/-- C86: for every block width dividing 128 and every program over any number of bitset variables (which all start
empty), the program fails exactly when the same program over lists of bits meets an out-of-range argument, and
otherwise every variable holds exactly the bits of the corresponding list. -/
theorem C86_bitset_refines (hw : 0 < w) (hd : w ∣ 128) (p : List (Cmd w)) :
    ((run (fun _ => empty) p).map fun e v => bits (e v)) = specRun (fun _ => []) p :=
  (run_agree hw hd p (fun _ => empty_ref.1)).1

/-- C86: the stored form is canonical: as many blocks as needed, unused bits zero.  So two variables that hold the
same bits, whatever their histories, are stored identically. -/
theorem C86_canonical (hw : 0 < w) (hd : w ∣ 128) (p : List (Cmd w)) (e : Nat → BS w) (h : run (fun _ => empty) p = some e) (u v : Nat) :
    WF (e v) ∧ (bits (e u) = bits (e v) → e u = e v) :=
  have hwf := (run_agree hw hd p (fun _ => empty_ref.1)).2 e h
  ⟨hwf v, wf_ext hw _ _ (hwf u) (hwf v)⟩

/-- A program of the kind C86 ranges over: 8-bit blocks, crossing block boundaries. -/
def demo : List (Cmd 8) :=
  [.new 0 11 (BitVec.ofNat 128 0x5A5), .append 0 0, .shl 0 3, .parse 1 "1011".toList 0 9, .append 1 0, .resize 1 30 true,
   .setRange 1 5 20 false, .flipRange 1 7 9, .assign 2 1, .shr 2 9, .bin .xor 2 1, .popBack 2, .pushBack 2 true, .flip 2 29]

example : ((run (fun _ => empty) demo).map fun e => (bits (e 0), bits (e 1), bits (e 2))) =
    (specRun (fun _ => []) demo).map fun e => (e 0, e 1, e 2) := by decide +kernel
example : ((run (fun _ => empty) demo).map fun e => ((e 2).n, (bits (e 2)).countP id)) = some (30, 22) := by decide +kernel
example : (run (fun _ => empty) [Cmd.new (w := 8) 0 3 5, .set 0 3 true]).isNone := by decide +kernel

/-! ### C87 -/

/-- C87: after any program, every query on a variable answers what the same query on the list of its bits answers. -/
theorem C87_queries (hw : 0 < w) (hd : w ∣ 128) (p : List (Cmd w)) (e : Nat → BS w) (s : Nat → List Bool)
    (h : run (fun _ => empty) p = some e) (hs : specRun (fun _ => []) p = some s) (v : Nat) :
    (e v).n = (s v).length ∧
    (∀ pos, test (e v) pos = if pos < (s v).length then some ((s v).getD pos false) else none) ∧
    all (e v) = (s v).all id ∧ any (e v) = (s v).any id ∧ isNone (e v) = !(s v).any id ∧
    count (e v) = (s v).countP id ∧
    IsFirst (s v) 0 (findFirst (e v)) ∧ (∀ prev, IsFirst (s v) (prev + 1) (findNext (e v) prev)) ∧
    iterate (e v) (e v).n (findFirst (e v)) = (List.range (s v).length).filter (fun i => (s v).getD i false) ∧
    (∀ pos b, pos < (s v).length → ∃ r, testSet (e v) pos b = some ((s v).getD pos false, r) ∧ bits r = (s v).set pos b) := by
  have hwf := (run_agree hw hd p (fun _ => empty_ref.1)).2 e h v
  have hb : s v = bits (e v) := by
    have := C86_bitset_refines hw hd p
    rw [h, hs, Option.map_some] at this
    have := Option.some.inj this
    rw [← this]
  rw [hb, bits_length]
  refine ⟨rfl, test_ref hw _, all_ref hw hwf, any_ref hw hwf, none_ref hw hwf, count_ref hw hwf, findFirst_ref hw hwf,
    findNext_ref hw hwf, iterate_ref hw hwf, fun pos b hp => ?_⟩
  obtain ⟨r, h1, _, h3⟩ := testSet_ref hw hwf pos b hp
  exact ⟨r, h1, h3⟩

/-- C87: after any program, comparisons of two variables answer what they answer on the lists of bits: `==` is
equality, `<` orders by the number the bits stand for and then by length, inclusion and intersection are those of
the sets of positions. -/
theorem C87_compare (hw : 0 < w) (hd : w ∣ 128) (p : List (Cmd w)) (e : Nat → BS w) (s : Nat → List Bool)
    (h : run (fun _ => empty) p = some e) (hs : specRun (fun _ => []) p = some s) (u v : Nat) :
    (beq (e u) (e v) = true ↔ s u = s v) ∧
    (lt (e u) (e v) = true ↔ value (s u) < value (s v) ∨ (value (s u) = value (s v) ∧ (s u).length < (s v).length)) ∧
    (intersects (e u) (e v) = true ↔ ∃ i, (s u).getD i false = true ∧ (s v).getD i false = true) ∧
    ((s u).length = (s v).length →
      (∃ r, isSubsetOf (e u) (e v) = some r ∧ (r = true ↔ ∀ i, (s u).getD i false = true → (s v).getD i false = true)) ∧
      ∃ r, isProperSubsetOf (e u) (e v) = some r ∧
        (r = true ↔ (∀ i, (s u).getD i false = true → (s v).getD i false = true) ∧ s u ≠ s v)) := by
  have hwf := (run_agree hw hd p (fun _ => empty_ref.1)).2 e h
  have hb : ∀ x, s x = bits (e x) := by
    have := C86_bitset_refines hw hd p
    rw [h, hs, Option.map_some] at this
    have := Option.some.inj this
    intro x
    rw [← this]
  rw [hb u, hb v, bits_length, bits_length]
  exact ⟨beq_ref hw (hwf u) (hwf v), lt_ref hw (hwf u) (hwf v), intersects_ref hw (hwf u) (hwf v), fun hn =>
    ⟨subset_ref hw (hwf u) (hwf v) hn, proper_ref hw (hwf u) (hwf v) hn⟩⟩

/-- C87: `to_string` writes the bits from the last to the first, and parsing that string with the same two
characters gives the bitset back. -/
theorem C87_strings {α : Type} [DecidableEq α] (hw : 0 < w) (hd : w ∣ 128) (p : List (Cmd w)) (e : Nat → BS w) (s : Nat → List Bool)
    (h : run (fun _ => empty) p = some e) (hs : specRun (fun _ => []) p = some s) (v : Nat) (zero one : α) :
    toStr (e v) zero one = ((s v).map fun x => if x then one else zero).reverse ∧
    (zero ≠ one → s v ≠ [] → ∀ n, (s v).length ≤ n → fromStr (toStr (e v) zero one) 0 n zero one = some (e v)) := by
  have hwf := (run_agree hw hd p (fun _ => empty_ref.1)).2 e h v
  have hb : s v = bits (e v) := by
    have := C86_bitset_refines hw hd p
    rw [h, hs, Option.map_some] at this
    have := Option.some.inj this
    rw [← this]
  rw [hb]
  have ht := toStr_ref hw hwf zero one
  refine ⟨ht, fun hne hnil n hn => ?_⟩
  rw [ht]
  have hlen : (((bits (e v)).map fun x => if x then one else zero).reverse).length = (bits (e v)).length := by simp
  obtain ⟨r, h1, h2, h3⟩ := fromStr_ref (w := w) hw (((bits (e v)).map fun x => if x then one else zero).reverse) 0 n zero one
    (by rw [hlen]; exact List.length_pos_of_ne_nil hnil) (by
      intro c hc
      have := List.mem_of_mem_take hc
      rw [List.drop_zero, List.mem_reverse, List.mem_map] at this
      obtain ⟨x, _, rfl⟩ := this
      cases x
      · exact Or.inl rfl
      · exact Or.inr rfl)
  rw [h1]
  congr 1
  apply wf_ext hw r (e v) h2 hwf
  rw [h3, List.drop_zero, List.take_of_length_le (by rw [hlen]; exact hn), List.map_reverse, List.reverse_reverse, List.map_map]
  conv_rhs => rw [← List.map_id (bits (e v))]
  apply List.map_congr_left
  intro x _
  cases x
  · simp [hne]
  · simp

example : ((run (fun _ => empty) demo).map fun e => toStr (e 1) '0' '1') = some "111110000000001111111110001011".toList := by
  decide +kernel
example : ((run (fun _ => empty) demo).map fun e => (lt (e 0) (e 1), lt (e 1) (e 0), findNext (e 0) 5, count (e 0))) =
    some (true, false, some 8, 10) := by decide +kernel

end Yacl.Bitset
