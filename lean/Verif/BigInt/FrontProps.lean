/-
C129: BigInt programs keep to one library; the default library.
-/
import Verif.BigInt.Front

namespace Yacl.BigInt.Front

open Yacl.Spi (Str lower)

/-! ### Specification -/

/-- A program computed directly with the arithmetic `S` of one library on plain integers; `none` when the
arithmetic refuses. -/
def plainStep (S : Sem) (r : ℕ → Int) : Instr → Option ((ℕ → Int) × List Int)
  | .new d v _ => some (setReg r d v, [])
  | .set d v => some (setReg r d v, [])
  | .copy d a => some (setReg r d (r a), [])
  | .bin op d a b => (S.bin op (r a) (r b)).map fun x => (setReg r d x, [])
  | .assign op d b => (S.bin op (r d) (r b)).map fun x => (setReg r d x, [])
  | .tern op d a b c => (S.tern op (r a) (r b) (r c)).map fun x => (setReg r d x, [])
  | .un op d a => (S.un op (r a)).map fun x => (setReg r d x, [])
  | .cmp .lt a b => some (r, [if r a < r b then 1 else 0])
  | .cmp .le a b => some (r, [if r a ≤ r b then 1 else 0])
  | .cmp .gt a b => some (r, [if r a > r b then 1 else 0])
  | .cmp .ge a b => some (r, [if r a ≥ r b then 1 else 0])
  | .cmp .eq a b => some (r, [if r a = r b then 1 else 0])
  | .cmp .ne a b => some (r, [if r a ≠ r b then 1 else 0])
  | .read a => some (r, [r a])
  | .randLtN d n k => if r n ≤ 0 then none else some (setReg r d (k % r n), [])
  | .randBits d bits k => some (setReg r d ((k % 2 ^ bits : ℕ)), [])
  | .mont a => some (r, [r a])

def plain (S : Sem) : (ℕ → Int) → List Instr → Option ((ℕ → Int) × List Int)
  | r, [] => some (r, [])
  | r, i :: p => (plainStep S r i).bind fun x => (plain S x.1 p).map fun q => (q.1, x.2 ++ q.2)

/-- The program takes all its numbers from library `l`: it names no other library, and it uses the default
library (unnamed, random bits, Montgomery spaces) only if that is `l`. -/
def Only (dflt l : BLib) (p : List Instr) : Prop :=
  ∀ i ∈ p, match i with
    | .new _ _ (some l') => l' = l
    | .new _ _ none => dflt = l
    | .randBits _ _ _ => dflt = l
    | .mont _ => dflt = l
    | _ => True

/-! ### Helpers -/

theorem setReg_lib {l : BLib} {r : Regs} (hr : ∀ i, (r i).lib = l) (d : ℕ) (x : Num) (hx : x.lib = l) :
    ∀ i, (setReg r d x i).lib = l := by
  intro i; unfold setReg; split <;> simp_all

theorem setReg_val (r : Regs) (d : ℕ) (x : Num) :
    (fun i => (setReg r d x i).v) = setReg (fun i => (r i).v) d x.v := by
  funext i; unfold setReg; split <;> rfl

theorem step_plain (sem : BLib → Sem) (dflt l : BLib) (r : Regs) (hr : ∀ i, (r i).lib = l) (i : Instr)
    (hi : Only dflt l [i]) :
    match plainStep (sem l) (fun i => (r i).v) i with
    | some (q, o) => ∃ r', step sem dflt r i = .ok (r', o) ∧ (∀ j, (r' j).lib = l) ∧ (fun j => (r' j).v) = q
    | none => step sem dflt r i = .error .library := by
  have hi' := hi i (by simp)
  have mk : ∀ (d : ℕ) (x : Option Int),
      match x.map fun y => (setReg (fun i => (r i).v) d y, ([] : List Int)) with
      | some (q, o) => ∃ r', (((orLibrary x).map fun y => (⟨l, y⟩ : Num)).map fun y => (setReg r d y, ([] : List Int)))
          = .ok (r', o) ∧ (∀ j, (r' j).lib = l) ∧ (fun j => (r' j).v) = q
      | none => (((orLibrary x).map fun y => (⟨l, y⟩ : Num)).map fun y => (setReg r d y, ([] : List Int)))
          = .error Err.library := by
    intro d x
    cases x with
    | none => rfl
    | some y => exact ⟨_, rfl, setReg_lib hr d _ rfl, setReg_val r d _⟩
  cases i with
  | new d v lo =>
    refine ⟨_, rfl, setReg_lib hr d _ ?_, setReg_val r d _⟩
    cases lo <;> exact hi'
  | set d v => exact ⟨_, rfl, setReg_lib hr d _ (hr d), setReg_val r d _⟩
  | copy d a => exact ⟨_, rfl, setReg_lib hr d _ (hr a), setReg_val r d _⟩
  | bin op d a b =>
    have := mk d ((sem l).bin op (r a).v (r b).v)
    simpa only [plainStep, step, applyBinary, hr, if_true] using this
  | assign op d b =>
    have := mk d ((sem l).bin op (r d).v (r b).v)
    simpa only [plainStep, step, applyCompAssign, hr, if_true] using this
  | tern op d a b c =>
    have := mk d ((sem l).tern op (r a).v (r b).v (r c).v)
    simpa only [plainStep, step, applyTernary, hr, and_self, if_true] using this
  | un op d a =>
    have := mk d ((sem l).un op (r a).v)
    simpa only [plainStep, step, visit, hr] using this
  | cmp op a b =>
    cases op <;> refine ⟨r, ?_, hr, rfl⟩ <;> simp [step, compare, hr, Except.map]
  | read a => exact ⟨r, rfl, hr, rfl⟩
  | randLtN d n k =>
    by_cases h : (r n).v ≤ 0
    · simp only [plainStep, step, randomLtN, h, if_true]; rfl
    · simp only [plainStep, step, randomLtN, h, if_false]
      exact ⟨_, rfl, setReg_lib hr d _ (hr n), setReg_val r d _⟩
  | randBits d bits k => exact ⟨_, rfl, setReg_lib hr d _ hi', setReg_val r d _⟩
  | mont a =>
    refine ⟨r, ?_, hr, rfl⟩
    have : dflt = l := hi'
    simp [step, createMontgomerySpace, hr, this, Except.map]

/-! ### C129 -/

/-- A program that takes its numbers from one library runs as that library's arithmetic on plain integers: no
call reports mismatched libraries, the outputs are the plain ones, every register still belongs to the library,
and an exception occurs exactly where the arithmetic refuses. -/
theorem C129_one_library (sem : BLib → Sem) (dflt l : BLib) (p : List Instr) (hp : Only dflt l p) (r : Regs)
    (hr : ∀ i, (r i).lib = l) :
    match plain (sem l) (fun i => (r i).v) p with
    | some (q, o) => ∃ r', run sem dflt r p = .ok (r', o) ∧ (∀ i, (r' i).lib = l) ∧ ∀ i, (r' i).v = q i
    | none => run sem dflt r p = .error .library := by
  induction p generalizing r with
  | nil => exact ⟨r, rfl, hr, fun _ => rfl⟩
  | cons i p ih =>
    have h1 := step_plain sem dflt l r hr i (fun j hj => hp j (by simp at hj; simp [hj]))
    have hp' : Only dflt l p := fun j hj => hp j (by simp [hj])
    simp only [plain, run]
    cases hs : plainStep (sem l) (fun i => (r i).v) i with
    | none =>
      rw [hs] at h1
      simp only [] at h1
      simp only [Option.bind_none, h1]
    | some x =>
      obtain ⟨q, o⟩ := x
      rw [hs] at h1
      obtain ⟨r1, e1, l1, v1⟩ := h1
      simp only [Option.bind_some, e1]
      have := ih hp' r1 l1
      rw [v1] at this
      cases hq : plain (sem l) q p with
      | none => rw [hq] at this; simp only [] at this; simp only [Option.map_none, this]; rfl
      | some y =>
        obtain ⟨q2, o2⟩ := y
        rw [hq] at this
        obtain ⟨r2, e2, l2, v2⟩ := this
        exact ⟨r2, by simp only [e2]; rfl, l2, v2⟩

/-- The library does not matter: a program of sums, differences, products, remainders, negations, comparisons
and random numbers, written for any library `l`, gives the same outputs with every library. -/
theorem C129_same_outputs (other : BLib → Sem) (l l' : BLib) (p : List Instr)
    (hops : ∀ i ∈ p, match i with
      | .bin op _ _ _ => op = .add ∨ op = .sub ∨ op = .mul ∨ op = .mod
      | .assign op _ _ => op = .add ∨ op = .sub ∨ op = .mul ∨ op = .mod
      | .un op _ _ => op = .neg
      | .tern _ _ _ _ _ => False
      | .new _ _ lo => lo = none
      | _ => True) (r : ℕ → Int) :
    (run (realSem other) l (fun i => ⟨l, r i⟩) p).map Prod.snd
      = (run (realSem other) l' (fun i => ⟨l', r i⟩) p).map Prod.snd := by
  have only : ∀ l, Only l l p := by
    intro l i hi
    have := hops i hi
    cases i <;> simp_all
  have same : ∀ (l : BLib) (op : BinOp) (a b : Int), (op = .add ∨ op = .sub ∨ op = .mul ∨ op = .mod) →
      (realSem other l).bin op a b = (realSem other .gmp).bin op a b := by
    intro l op a b h
    rcases h with rfl | rfl | rfl | rfl
    · rfl
    · rfl
    · rfl
    · cases l
      · rfl
      · exact Back.C110_remainder a b
      · rfl
  have steps : ∀ (l : BLib) (p : List Instr) (_ : ∀ i ∈ p, match i with
      | .bin op _ _ _ => op = .add ∨ op = .sub ∨ op = .mul ∨ op = .mod
      | .assign op _ _ => op = .add ∨ op = .sub ∨ op = .mul ∨ op = .mod
      | .un op _ _ => op = .neg
      | .tern _ _ _ _ _ => False
      | .new _ _ lo => lo = none
      | _ => True) (r : ℕ → Int), plain (realSem other l) r p = plain (realSem other .gmp) r p := by
    intro l p
    induction p with
    | nil => intros; rfl
    | cons i p ih =>
      intro h r
      have h1 := h i (by simp)
      have : plainStep (realSem other l) r i = plainStep (realSem other .gmp) r i := by
        cases i with
        | bin op d a b => simp only [plainStep]; rw [same l op _ _ h1]
        | assign op d b => simp only [plainStep]; rw [same l op _ _ h1]
        | un op d a => have : op = .neg := h1; subst this; rfl
        | tern => exact absurd h1 id
        | cmp op a b => cases op <;> rfl
        | _ => rfl
      simp only [plain, this]
      congr 1
      funext x
      rw [ih (fun j hj => h j (by simp [hj]))]
  have ev : ∀ l, (run (realSem other) l (fun i => ⟨l, r i⟩) p).map Prod.snd
      = match plain (realSem other .gmp) r p with
        | some (_, o) => .ok o
        | none => .error .library := by
    intro l
    have := C129_one_library (realSem other) l l p (only l) (fun i => ⟨l, r i⟩) (fun _ => rfl)
    simp only [] at this
    rw [steps l p hops r] at this
    cases hq : plain (realSem other .gmp) r p with
    | none => rw [hq] at this; simp only [] at this ⊢; rw [this]; rfl
    | some x =>
      rw [hq] at this
      obtain ⟨r', e, -, -⟩ := this
      simp only [e]; rfl
  rw [ev l, ev l']

/-- Numbers of two libraries never meet: every operation and comparison on them throws. -/
theorem C129_mixed (sem : BLib → Sem) (a b c : Num) (h : a.lib ≠ b.lib) (op : BinOp) (top : TernOp) (cop : CmpOp) :
    applyBinary sem op a b = .error .mismatch ∧ applyCompAssign sem op a b = .error .mismatch ∧
    compare cop a b = .error .mismatch ∧ applyTernary sem top a b c = .error .mismatch ∧
    applyTernary sem top c a b = .error .mismatch ∧ applyTernary sem top a c b = .error .mismatch := by
  simp only [applyBinary, applyCompAssign, compare, applyTernary, h, if_false, false_and, and_false]
  refine ⟨trivial, trivial, trivial, trivial, trivial, ?_⟩
  rw [if_neg]
  rintro ⟨h1, h2⟩
  exact h (h1.trans h2)

/-- The calls that use the default library break the property for every other one: a number overwritten by
`RandomExactBits(bits, &r)` changes its library, so that the next operation with its old companions throws, and
`CreateMontgomerySpace` refuses every modulus. -/
theorem C129_default_violated (sem : BLib → Sem) (dflt l : BLib) (h : l ≠ dflt) (r : Regs) (hr : ∀ i, (r i).lib = l)
    (d a bits draw : ℕ) (had : a ≠ d) (op : BinOp) :
    run sem dflt r [.randBits d bits draw, .bin op d d a] = .error .mismatch ∧
    run sem dflt r [.mont a] = .error .wrongAlternative := by
  constructor
  · have : dflt ≠ (r a).lib := by rw [hr]; exact h.symm
    simp [run, step, randomExactBits, setReg, applyBinary, had, this, Except.map]
  · simp [run, step, createMontgomerySpace, hr, h, Except.map]

/-- The default library: OpenSSL when the variable is not set; otherwise the library named by the variable in
any mixture of cases, if it is there (GMP must have been found); any other name throws. -/
theorem C129_default (gmpLoaded : Bool) :
    create gmpLoaded none = some .openssl ∧
    ∀ e, create gmpLoaded (some e) =
      if lower e = "tommath".toList then some .tommath
      else if lower e = "openssl".toList then some .openssl
      else if lower e = "gmp".toList ∧ gmpLoaded = true then some .gmp else none := by
  constructor
  · cases gmpLoaded <;> decide
  · intro e
    have key : ∀ n : Str, ((Spi.registerAll (registrations gmpLoaded) Spi.new).bind fun f =>
        (Spi.pick f (some n) ()).bind byName) =
        if n = "tommath".toList then some BLib.tommath
        else if n = "openssl".toList then some .openssl
        else if n = "gmp".toList ∧ gmpLoaded = true then some .gmp else none := by
      intro n
      have hf : ∃ f, Spi.registerAll (registrations gmpLoaded) Spi.new = some f := by
        cases gmpLoaded <;> exact ⟨_, rfl⟩
      obtain ⟨f, hf⟩ := hf
      obtain ⟨h1, h2⟩ := Spi.C108_named _ f hf () n
      rw [hf, Option.bind_some]
      have hl : lower "gmp".toList = "gmp".toList ∧ lower "openssl".toList = "openssl".toList ∧
        lower "tommath".toList = "tommath".toList := by decide
      have hb : byName "gmp".toList = some .gmp ∧ byName "openssl".toList = some .openssl ∧
        byName "tommath".toList = some .tommath := by decide
      have hd : "gmp".toList ≠ "openssl".toList ∧ "gmp".toList ≠ "tommath".toList ∧
        "openssl".toList ≠ "tommath".toList := by decide
      unfold registrations at h2
      clear hf
      generalize "gmp".toList = g at *
      generalize "openssl".toList = o at *
      generalize "tommath".toList = t at *
      have h2' : (Spi.pick f (some n) ()).isSome ↔ (g = n ∧ gmpLoaded = true) ∨ o = n ∨ t = n := by
        rw [h2]
        constructor
        · rintro ⟨r, hr, hn, hc⟩
          rcases List.mem_cons.1 hr with rfl | hr
          · exact .inl ⟨hl.1.symm.trans hn, hc⟩
          · rcases List.mem_cons.1 hr with rfl | hr
            · exact .inr (.inl (hl.2.1.symm.trans hn))
            · rw [List.mem_singleton] at hr; subst hr; exact .inr (.inr (hl.2.2.symm.trans hn))
        · rintro (⟨h, hg⟩ | h | h)
          · exact ⟨_, List.mem_cons_self, hl.1.trans h, hg⟩
          · exact ⟨_, List.mem_cons_of_mem _ List.mem_cons_self, hl.2.1.trans h, rfl⟩
          · exact ⟨_, List.mem_cons_of_mem _ (List.mem_cons_of_mem _ List.mem_cons_self), hl.2.2.trans h, rfl⟩
      clear h2
      cases hp : Spi.pick f (some n) () with
      | none =>
        rw [hp] at h2'
        have hno : ¬ ((g = n ∧ gmpLoaded = true) ∨ o = n ∨ t = n) := fun h => by simpa using h2'.2 h
        rw [if_neg (fun h => hno (.inr (.inr h.symm))), if_neg (fun h => hno (.inr (.inl h.symm))),
          if_neg (fun h => hno (.inl ⟨h.1.symm, h.2⟩))]
        rfl
      | some m =>
        have hm := h1 m hp
        subst hm
        rw [hp] at h2'
        rw [Option.bind_some]
        rcases h2'.1 rfl with ⟨h, hg⟩ | h | h
        · subst h; rw [if_neg hd.2.1, if_neg hd.1, if_pos ⟨rfl, hg⟩]; exact hb.1
        · subst h; rw [if_neg hd.2.2, if_pos rfl]; exact hb.2.1
        · subst h; rw [if_pos rfl]; exact hb.2.2
    exact key (lower e)

/-- Once chosen the default stays, whatever happens to the variable later, and the first value of the variable
decides. -/
theorem C129_default_stays (gmpLoaded : Bool) (e : Option Str) (es : List (Option Str)) :
    defaultCalls gmpLoaded {} (e :: es) = List.replicate (es.length + 1) (create gmpLoaded e) := by
  have h : ∀ (es : List (Option Str)) (s : Statics), (s.lib = create gmpLoaded e ∧ s.env = some e) →
      defaultCalls gmpLoaded s es = List.replicate es.length (create gmpLoaded e) := by
    intro es
    induction es with
    | nil => intros; rfl
    | cons x t ih =>
      rintro ⟨sl, se⟩ ⟨h1, h2⟩
      simp only [] at h1 h2
      subst h1 h2
      simp only [defaultCalls, List.length_cons, List.replicate_succ]
      cases hc : create gmpLoaded e with
      | none =>
        simp only [defaultLib, hc]
        rw [ih _ ⟨hc.symm, rfl⟩, hc]
      | some l =>
        simp only [defaultLib]
        rw [ih _ ⟨hc.symm, rfl⟩, hc]
  simp only [defaultCalls, List.replicate_succ]
  cases hc : create gmpLoaded e with
  | none =>
    simp only [defaultLib, hc]
    rw [h es _ ⟨hc.symm, rfl⟩, hc]
  | some l =>
    simp only [defaultLib, hc]
    rw [h es _ ⟨hc.symm, rfl⟩, hc]

/-! ### Non-vacuity -/

/-- Numbers of GMP although OpenSSL is the default. -/
example : Only .openssl .gmp [.new 0 7 (some .gmp), .bin .mul 1 0 0, .assign .sub 1 0, .cmp .lt 0 1, .read 1] := by
  intro i hi
  simp only [List.mem_cons, List.not_mem_nil, or_false] at hi
  rcases hi with rfl | rfl | rfl | rfl | rfl <;> trivial

example : (plain (realSem (fun _ => ⟨fun _ _ _ => none, fun _ _ _ _ => none, fun _ _ => none⟩) .gmp) (fun _ => 0)
    [.new 0 7 (some .gmp), .bin .mul 1 0 0, .assign .sub 1 0, .cmp .lt 0 1, .read 1]).map Prod.snd = some [1, 42] := by
  decide

end Yacl.BigInt.Front
