import Verif.Ecc.OpensslProps

/-!
# C121: instances and counterexamples
-/

namespace Verif.Ecc.Openssl

/-- A group of 7 points with made-up coordinates. -/
def toy : Lib (ZMod 7) where
  gen := 1
  order := 7
  field := 11
  mul := fun n q m => n • 1 + m • q
  affine := fun p => if p = 0 then none else some (p.val, p.val)
  setAffine := fun x y => if x = y ∧ 0 < x ∧ x < 7 then some (x : ZMod 7) else none
  toOct := fun f p => if p = 0 then [0] else
    match f with
    | .compressed => [2, UInt8.ofNat p.val]
    | .uncompressed => [4, UInt8.ofNat p.val, UInt8.ofNat p.val]
    | .hybrid => [6, UInt8.ofNat p.val, UInt8.ofNat p.val]
  ofOct := fun b =>
    match b with
    | [0] => some 0
    | [2, x] => if 0 < x.toNat ∧ x.toNat < 7 then some (x.toNat : ZMod 7) else none
    | [4, x, y] => if x = y ∧ 0 < x.toNat ∧ x.toNat < 7 then some (x.toNat : ZMod 7) else none
    | [6, x, y] => if x = y ∧ 0 < x.toNat ∧ x.toNat < 7 then some (x.toNat : ZMod 7) else none
    | _ => none
  decompress := fun x _ => if 0 < x ∧ x < 7 then some (x : ZMod 7) else none

theorem toy_ok : toy.Ok where
  order_pos := by decide
  order_lt := by
    show 7 < 2 ^ 8192
    calc 7 < 2 ^ 3 := by norm_num
      _ ≤ 2 ^ 8192 := Nat.pow_le_pow_right (by norm_num) (by norm_num)
  order_gen := by decide
  field_pos := by decide
  mul_eq := fun n q m => rfl
  affine_zero := by decide
  affine_inj := by decide
  setAffine_affine := by
    intro p x y h
    have : ∀ p : ZMod 7, p ≠ 0 → toy.setAffine (p.val : Int) (p.val : Int) = some p := by decide
    by_cases hp : p = 0
    · simp [toy, hp] at h
    · simp only [toy, hp, if_false, Option.some.injEq, Prod.mk.injEq] at h
      obtain ⟨rfl, rfl⟩ := h
      exact this p hp
  setAffine_ne := by
    intro x y p h hp
    simp only [toy] at h
    split at h
    · next hc =>
      obtain ⟨rfl, h1, h2⟩ := hc
      have h := Option.some.inj h
      rw [hp, ZMod.intCast_zmod_eq_zero_iff_dvd] at h
      omega
    · cases h
  toOct_zero := by intro f; simp [toy]
  toOct_ne := by
    intro f p hp
    cases f
    · exact ⟨2, _, by simp [toy, hp]; rfl, by decide⟩
    · exact ⟨4, _, by simp [toy, hp]; rfl, by decide⟩
    · exact ⟨6, _, by simp [toy, hp]; rfl, by decide⟩
  toOct_len := by
    intro f p q hp hq
    cases f <;> simp [toy, hp, hq]
  ofOct_toOct := by
    intro f
    cases f <;> decide
  gen_ne := by decide
  decompress_x := by
    intro x b p hx h
    simp only [toy] at h
    split at h
    · next hc =>
      have h := Option.some.inj h
      have h1 : p.val = x := by rw [← h, ZMod.val_natCast, Nat.mod_eq_of_lt hc.2]
      have h2 : p ≠ 0 := by
        intro h0; rw [h0] at h1; simp at h1; omega
      exact ⟨x, by simp [toy, h2, h1]⟩
    · cases h

/-- A group of 6 points whose generator has order 3: cofactor 2. -/
def toy6 : Lib (ZMod 6) where
  gen := 2
  order := 3
  field := 11
  mul := fun n q m => n • 2 + m • q
  affine := fun p => if p = 0 then none else some (p.val, p.val)
  setAffine := fun x y => if x = y ∧ 0 < x ∧ x < 6 then some (x : ZMod 6) else none
  toOct := fun f p => if p = 0 then [0] else
    match f with
    | .compressed => [2, UInt8.ofNat p.val]
    | .uncompressed => [4, UInt8.ofNat p.val, UInt8.ofNat p.val]
    | .hybrid => [6, UInt8.ofNat p.val, UInt8.ofNat p.val]
  ofOct := fun b =>
    match b with
    | [0] => some 0
    | [2, x] => if 0 < x.toNat ∧ x.toNat < 6 then some (x.toNat : ZMod 6) else none
    | [4, x, y] => if x = y ∧ 0 < x.toNat ∧ x.toNat < 6 then some (x.toNat : ZMod 6) else none
    | [6, x, y] => if x = y ∧ 0 < x.toNat ∧ x.toNat < 6 then some (x.toNat : ZMod 6) else none
    | _ => none
  decompress := fun x _ => if 0 < x ∧ x < 6 then some (x : ZMod 6) else none

theorem toy6_ok : toy6.Ok where
  order_pos := by decide
  order_lt := by
    show 3 < 2 ^ 8192
    calc 3 < 2 ^ 3 := by norm_num
      _ ≤ 2 ^ 8192 := Nat.pow_le_pow_right (by norm_num) (by norm_num)
  order_gen := by decide
  field_pos := by decide
  mul_eq := fun n q m => rfl
  affine_zero := by decide
  affine_inj := by decide
  setAffine_affine := by
    intro p x y h
    have : ∀ p : ZMod 6, p ≠ 0 → toy6.setAffine (p.val : Int) (p.val : Int) = some p := by decide
    by_cases hp : p = 0
    · simp [toy6, hp] at h
    · simp only [toy6, hp, if_false, Option.some.injEq, Prod.mk.injEq] at h
      obtain ⟨rfl, rfl⟩ := h
      exact this p hp
  setAffine_ne := by
    intro x y p h hp
    simp only [toy6] at h
    split at h
    · next hc =>
      obtain ⟨rfl, h1, h2⟩ := hc
      have h := Option.some.inj h
      rw [hp, ZMod.intCast_zmod_eq_zero_iff_dvd] at h
      omega
    · cases h
  toOct_zero := by intro f; simp [toy6]
  toOct_ne := by
    intro f p hp
    cases f
    · exact ⟨2, _, by simp [toy6, hp]; rfl, by decide⟩
    · exact ⟨4, _, by simp [toy6, hp]; rfl, by decide⟩
    · exact ⟨6, _, by simp [toy6, hp]; rfl, by decide⟩
  toOct_len := by
    intro f p q hp hq
    cases f <;> simp [toy6, hp, hq]
  ofOct_toOct := by
    intro f
    cases f <;> decide
  gen_ne := by decide
  decompress_x := by
    intro x b p hx h
    simp only [toy6] at h
    split at h
    · next hc =>
      have h := Option.some.inj h
      have h1 : p.val = x := by rw [← h, ZMod.val_natCast, Nat.mod_eq_of_lt hc.2]
      have h2 : p ≠ 0 := by
        intro h0; rw [h0] at h1; simp at h1; omega
      exact ⟨x, by simp [toy6, h2, h1]⟩
    · cases h


/-! ## The hypotheses are met -/

/-- A program with every kind of call; variables 1, 3 and 5 are updated in place
after they received points of their own. -/
def prog : List Cmd :=
  [.getGenerator 0, .copyPoint 1 0, .doubleInplace 1, .mulBase 2 10, .add 3 1 2, .subInplace 3 0,
   .negateInplace 3, .mulDoubleBase 4 3 (-9) 3, .getAffine 6 4, .copyPoint 5 6, .div 7 5 3,
   .divInplace 5 (-4), .mulInplace 1 5, .double 8 7, .sub 9 8 7, .negate 10 9, .mul 11 10 3,
   .affineLit 12 5 6, .copyPoint 13 12, .div 13 5 7, .addInplace 1 11, .copyHandle 14 1]

/-- `Disciplined`, computed. -/
def disc {P : Type} [AddCommGroup P] (L : Lib P) : St P → List Nat → List Cmd → Bool
  | _, _, [] => true
  | s, o, c :: cs =>
    (match inplaceTarget c with | some x => o.contains x | none => true) &&
    match step L s c with
    | some s' =>
      let o' := match c with
        | .getGenerator y | .affineLit y _ _ | .getAffine y _ => o.filter (· != y)
        | .copyHandle y z => (o.filter (· != y)).filter (· != z)
        | _ => o
      disc L s' (match freshTarget c with | some x => x :: o' | none => o') cs
    | none => disc L s o cs

theorem disciplined_congr {P : Type} [AddCommGroup P] (L : Lib P) (cs : List Cmd) :
    ∀ (s : St P) (o o' : Nat → Prop), (∀ x, o x → o' x) → Disciplined L s o cs → Disciplined L s o' cs := by
  induction cs with
  | nil => intros; trivial
  | cons c cs ih =>
    intro s o o' h hd
    obtain ⟨h1, h2⟩ := hd
    refine ⟨fun x hx => h x (h1 x hx), ?_⟩
    split
    · next s' e =>
      rw [e] at h2
      refine ih _ _ _ ?_ h2
      rintro x (hx | ⟨hx, hy⟩)
      · exact Or.inl hx
      · exact Or.inr ⟨h x hx, hy⟩
    · next e => rw [e] at h2; exact ih _ _ _ h h2

theorem disc_ok {P : Type} [AddCommGroup P] (L : Lib P) (cs : List Cmd) :
    ∀ (s : St P) (o : List Nat), disc L s o cs = true → Disciplined L s (fun x => x ∈ o) cs := by
  induction cs with
  | nil => intros; trivial
  | cons c cs ih =>
    intro s o h
    unfold disc at h
    rw [Bool.and_eq_true] at h
    obtain ⟨h1, h2⟩ := h
    refine ⟨fun x hx => by rw [hx] at h1; simpa using h1, ?_⟩
    split
    · next s' e =>
      rw [e] at h2
      refine disciplined_congr L cs _ _ _ ?_ (ih _ _ h2)
      intro x hx
      clear h2 e h1 ih
      cases c <;> simp [freshTarget, ownAfter] at hx ⊢ <;> tauto
    · next e => rw [e] at h2; exact ih _ _ h2

theorem prog_disciplined : Disciplined toy (init toy) (fun _ => False) prog :=
  disciplined_congr toy prog _ _ _ (fun x hx => by simp at hx) (disc_ok toy prog (init toy) [] (by decide +kernel))

/-- The value of variable `x` after a program on the group of 7 points. -/
def look (s : St (ZMod 7)) (x : Nat) : Option Nat :=
  match abs s x with
  | .point p => some p.val
  | _ => none

/-- `C121_value_semantics_partial` applies to `prog`, and its variables hold what
arithmetic modulo 7 says. -/
example : (∀ p : ZMod 7, (toy.order : Int) • p = 0) ∧
    SpecRun toy (fun _ => .bytes) prog (abs (run toy (init toy) prog)) ∧
    (List.range 15).map (look (run toy (init toy) prog)) =
      [some 1, some 6, some 3, some 3, some 4, some 6, none, some 6, some 5, some 6, some 1, some 3,
       none, none, some 6] :=
  ⟨by decide, C121_value_semantics_partial toy toy_ok (by decide) prog prog_disciplined, by decide +kernel⟩

/-- The other hypotheses hold on the group of 7 points: a hash to the curve that
needs a second try, and one that never succeeds. -/
example :
    hashToCurve toy (fun _ _ m => [m.foldl (· + ·) 5]) "x" 8 .autonomous [3] = some 2 ∧
    hashToCurve toy (fun _ _ _ => [9]) "x" 8 .autonomous [3] = none ∧
    deserialize toy (serialize toy .x962Hybrid 5) = .ok 5 ∧
    hashPoint toy (fun x => 100 * x) 5 = some 501 := by
  decide +kernel

/-! ## Where values are not values -/

/-- **C121, violated.** `GetGenerator` hands out the group's own generator: after
doubling it in place the group object answers `GetGenerator` with `2·G`. -/
theorem C121_generator_violated :
    look (run toy (init toy) [.getGenerator 0, .doubleInplace 0, .getGenerator 1]) 1 = some 2 ∧
    ¬ SpecRun toy (fun _ => .bytes) [.getGenerator 0, .doubleInplace 0, .getGenerator 1]
      (abs (run toy (init toy) [.getGenerator 0, .doubleInplace 0, .getGenerator 1])) := by
  have h1 : look (run toy (init toy) [.getGenerator 0, .doubleInplace 0, .getGenerator 1]) 1 = some 2 := by
    decide +kernel
  refine ⟨h1, fun h => ?_⟩
  have h2 : abs (run toy (init toy) [.getGenerator 0, .doubleInplace 0, .getGenerator 1]) 1 = .point 1 := by
    generalize abs (run toy (init toy) [.getGenerator 0, .doubleInplace 0, .getGenerator 1]) = e at h
    cases h with
    | throws h _ => exact h.elim
    | ok _ h =>
      cases h with
      | throws _ h =>
        cases h with
        | throws h _ => exact h.elim
        | ok h h' => cases h'; rw [show e = _ from h]; rfl
      | ok _ h =>
        cases h with
        | throws h _ => exact h.elim
        | ok h h' => cases h'; rw [show e = _ from h]; rfl
  unfold look at h1
  rw [h2] at h1
  exact absurd h1 (by decide)

/-- **C121, violated.** Copying an `EcPoint` by C++ assignment shares the point:
an in-place update of the copy changes the original. -/
theorem C121_copy_violated :
    look (run toy (init toy) [.mulBase 0 1, .copyHandle 1 0]) 0 = some 1 ∧
    look (run toy (init toy) [.mulBase 0 1, .copyHandle 1 0, .doubleInplace 1]) 0 = some 2 := by
  decide +kernel

/-- **C121, violated.** On a curve with a cofactor, `MulDoubleBase(s1, s2, p)` is
not `s1·G + s2·p`: it reduces `s2` modulo the order of the generator, which is not
a multiple of the order of `p`.  `Mul` has no such error. -/
theorem C121_cofactor_violated :
    toy6.Ok ∧ ∃ (s : St (ZMod 6)) (p : ZMod 6) (s1 s2 : St (ZMod 6)), abs s 0 = .point p ∧
      step toy6 s (.mulDoubleBase 1 0 3 0) = some s1 ∧ abs s1 1 = .point 0 ∧
      step toy6 s (.mul 1 0 3) = some s2 ∧ abs s2 1 = .point 3 ∧
      (0 : Int) • toy6.gen + (3 : Int) • p = 3 := by
  refine ⟨toy6_ok, { heap := [2, 3], vars := fun _ => .ptr 1 }, 3,
    alloc { heap := [2, 3], vars := fun _ => .ptr 1 } 1 0, alloc { heap := [2, 3], vars := fun _ => .ptr 1 } 1 3,
    rfl, ?_, rfl, ?_, rfl, by decide⟩
  · have h : ∀ k : Int, mp2bn (k % toy6.order) = some (k % toy6.order) := fun k =>
      mp2bn_mod k toy6_ok.order_pos toy6_ok.order_lt
    simp only [step, h, cast]
    rfl
  · have h : mp2bn 3 = some 3 := mp2bn_nat (a := 3) (by
      calc 3 < 2 ^ 2 := by norm_num
        _ ≤ 2 ^ 8192 := Nat.pow_le_pow_right (by norm_num) (by norm_num))
    simp only [step, h, cast]
    rfl

/-- **C121, violated.** Deserializing an empty buffer reads a byte beyond it, and
any bytes after a leading zero are ignored, so that buffers which no
serialization produces give the point at infinity. -/
theorem C121_deserialize_violated {P : Type} [AddCommGroup P] (L : Lib P) (hL : L.Ok) (t : List UInt8) :
    deserialize L [] = .outOfBounds ∧ deserialize L (0 :: t) = .ok 0 := by
  refine ⟨by simp [deserialize], ?_⟩
  have h := hL.ofOct_toOct .compressed 0
  rw [hL.toOct_zero] at h
  rw [deserialize_zero, h]

/-- **C121, violated.** The coordinates of the point at infinity are `(0, 0)`, and
copying them back never gives the point at infinity. -/
theorem C121_infinity_violated {P : Type} [AddCommGroup P] (L : Lib P) (hL : L.Ok) (s s' : St P)
    (h : step L s (.copyPoint 1 0) = some s') (h0 : s.vars 0 = .affine 0 0) : abs s' 1 ≠ .point 0 := by
  have h2 : mp2bn 0 = some 0 := mp2bn_nat (a := 0) (Nat.two_pow_pos _)
  simp only [step, h0, h2] at h
  cases hp : L.setAffine 0 0 with
  | none => simp [hp] at h
  | some p =>
    have e : s' = alloc s 1 p := by simpa [hp] using h.symm
    subst e
    have := hL.setAffine_ne 0 0 p hp
    simpa [abs, absV, alloc] using this

/-- The field of P-256. -/
def p256 : Nat := 0xffffffff00000001000000000000000000000000ffffffffffffffffffffffff

/-- `b` of P-256: `y² = x³ - 3x + b`. -/
def b256 : Nat := 0x5ac635d8aa3a93e7b3ebbd55769886bc651d06b0cc53b0f63bce3c3e27d2604b

/-- **C121, violated.** `HashPoint` throws on a point with x coordinate 0, and
P-256 has such points. -/
theorem C121_hash_violated :
    (∃ y, y < p256 ∧ y ^ 2 % p256 = (0 ^ 3 + (p256 - 3) * 0 + b256) % p256) ∧
    ∀ (P : Type) (L : Lib P) (h : Nat → Nat) (p : P) (y : Nat), L.affine p = some (0, y) → hashPoint L h p = none := by
  refine ⟨⟨0x66485c780e2f83d72433bd5d84a06bb6541c2af31dae871728bf856a174f93f4, by decide +kernel, by decide +kernel⟩, ?_⟩
  intro P L h p y e
  simp [hashPoint, e, hashBn]

/-- **C121, violated.** The SHA3 strategy selects SHAKE256 for curves above 256
bits, but the result does not depend on SHAKE256 at all. -/
theorem C121_shake_violated {P : Type} (L : Lib P) (H H' : HashAlg → Nat → List UInt8 → List UInt8)
    (heq : ∀ n, H .shake128 n = H' .shake128 n) (curve : String) (bits : Nat) (hb : 256 < bits) (msg : List UInt8) :
    chooseAlg curve bits .sha3 = some .shake256 ∧
    hashToCurve L H curve bits .sha3 msg = hashToCurve L H' curve bits .sha3 msg := by
  have hb : ¬ bits ≤ 256 := by omega
  have e : rehash H .shake256 bits = rehash H' .shake256 bits := heq _
  simp only [hashToCurve, chooseAlg, hb, if_false, Option.bind_eq_bind, Option.bind_some, e, and_self]

end Verif.Ecc.Openssl
