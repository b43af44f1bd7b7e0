import Verif.Ecc.PairingModel
import Mathlib.Algebra.Field.ZMod
import Mathlib.Algebra.GroupWithZero.Basic
import Mathlib.Algebra.Group.TypeTags.Basic
import Mathlib.GroupTheory.OrderOfElement
import Mathlib.Tactic.Ring
import Mathlib.Tactic.SplitIfs

/-!
# C136: pairing programs

`Alg` is the mathematics: two groups, a pairing.  `spec` says what a call does to the
values of the variables.  The theorems compare the code with it, and then draw the
conclusions protocols rest on.
-/

namespace Verif.Ecc.Pairing

/-! ## Specification -/

/-- Generators, hashes, the pairing and its two halves. -/
structure Alg (P1 P2 K : Type) where
  g1 : P1
  g2 : P2
  hash1 : String → P1
  hash2 : String → P2
  miller : P1 → P2 → K
  finalExp : K → K
  pair : P1 → P2 → K

/-- The values of the variables. -/
structure Env (P1 P2 K : Type) where
  pt : Nat → Option (P1 ⊕ P2)
  gt : Nat → Option K

section
variable {P1 P2 K : Type}

/-- Variable `x` gets the point `c`. -/
def Env.set (e : Env P1 P2 K) (x : Nat) (c : P1 ⊕ P2) : Env P1 P2 K :=
  { e with pt := fun y => if y = x then some c else e.pt y }

/-- Variable `t` of the target group gets `v`. -/
def Env.setT (e : Env P1 P2 K) (t : Nat) (v : K) : Env P1 P2 K :=
  { e with gt := fun i => if i = t then some v else e.gt i }

/-- The point in `y` is of the right group, of the wrong one, or there is none. -/
def one {P : Type} (get : P1 ⊕ P2 → Option P) (e : Env P1 P2 K) (y : Nat) (f : P → Out (Env P1 P2 K)) :
    Out (Env P1 P2 K) :=
  match e.pt y with
  | none => .throws
  | some c => match get c with
    | some p => f p
    | none => .ub

/-- The same for two points of two groups. -/
def both {P Q : Type} (get : P1 ⊕ P2 → Option P) (get' : P1 ⊕ P2 → Option Q) (e : Env P1 P2 K) (y z : Nat)
    (f : P → Q → Env P1 P2 K) : Out (Env P1 P2 K) :=
  match e.pt y, e.pt z with
  | some a, some b => match get a, get' b with
    | some p, some q => .ok (f p q)
    | _, _ => .ub
  | _, _ => .throws

/-- A call on a group does to its target what its name says. -/
def gspec {P : Type} [AddCommGroup P] (get : P1 ⊕ P2 → Option P) (put : P → P1 ⊕ P2) (g : P) (hashF : String → P)
    (e : Env P1 P2 K) : GCmd → Out (Env P1 P2 K)
  | .generator x => .ok (e.set x (put g))
  | .copyPoint x y => one get e y fun p => .ok (e.set x (put p))
  | .add x y z => both get get e y z fun p q => e.set x (put (p + q))
  | .addInplace x y => both get get e x y fun p q => e.set x (put (p + q))
  | .sub x y z => one get e z fun q => one get e y fun p => .ok (e.set x (put (p - q)))
  | .subInplace x y => one get e y fun q => one get e x fun p => .ok (e.set x (put (p - q)))
  | .double x y => one get e y fun p => .ok (e.set x (put ((2 : Int) • p)))
  | .doubleInplace x => one get e x fun p => .ok (e.set x (put ((2 : Int) • p)))
  | .negate x y => one get e y fun p => .ok (e.set x (put (-p)))
  | .negateInplace x => one get e x fun p => .ok (e.set x (put (-p)))
  | .mulBase x k => .ok (e.set x (put (k • g)))
  | .mul x y k => one get e y fun p => .ok (e.set x (put (k • p)))
  | .mulInplace x k => one get e x fun p => .ok (e.set x (put (k • p)))
  | .hash x sha2 m _ => if sha2 then .ok (e.set x (put (hashF m))) else .throws

/-- The target group: throws without operands. -/
def gtv (e : Env P1 P2 K) (t : Nat) : Option K → Out (Env P1 P2 K)
  | none => .throws
  | some v => .ok (e.setT t v)

/-- A call. -/
def spec [AddCommGroup P1] [AddCommGroup P2] [DivInvMonoid K] (A : Alg P1 P2 K) (e : Env P1 P2 K) :
    Cmd → Out (Env P1 P2 K)
  | .create => .ok e
  | .handle x y => .ok { e with pt := fun z => if z = x then e.pt y else e.pt z }
  | .one c => gspec get1 .inl A.g1 A.hash1 e c
  | .two c => gspec get2 .inr A.g2 A.hash2 e c
  | .miller t x y => both get1 get2 e x y fun p q => e.setT t (A.miller p q)
  | .finalExp t u => gtv e t ((e.gt u).map A.finalExp)
  | .pairing t x y => both get1 get2 e x y fun p q => e.setT t (A.pair p q)
  | .gtOne t => .ok (e.setT t 1)
  | .gtMul t u v => gtv e t ((e.gt u).bind fun a => (e.gt v).map fun b => a * b)
  | .gtMulInplace t u => gtv e t ((e.gt t).bind fun a => (e.gt u).map fun b => a * b)
  | .gtInv t u => gtv e t ((e.gt u).map fun a => a⁻¹)
  | .gtDiv t u v => gtv e t ((e.gt u).bind fun a => (e.gt v).map fun b => a / b)
  | .gtPow t u k => gtv e t ((e.gt u).map fun a => a ^ k)
  | .gtPowInplace t k => gtv e t ((e.gt t).map fun a => a ^ k)

/-- No variable has a value. -/
def Env.empty : Env P1 P2 K := ⟨fun _ => none, fun _ => none⟩

/-- A program of the specification. -/
def specRun [AddCommGroup P1] [AddCommGroup P2] [DivInvMonoid K] (A : Alg P1 P2 K) (cs : List Cmd) :
    Out (Env P1 P2 K) := runBy (spec A) Env.empty cs

/-- What the variables of the code hold. -/
def view (w : Full P1 P2 K) : Env P1 P2 K := ⟨fun x => (look w.s x).map Prod.snd, w.gt⟩

/-- What libmcl is taken to do. -/
structure Ok [AddCommGroup P1] [AddCommGroup P2] [Field K] (L : PLib P1 P2 K) : Prop where
  prime : L.r.Prime
  ord1 : (L.r : Int) • L.hash1 "Bls12381" = 0
  ord2 : (L.r : Int) • L.hash2 "Bls12381" = 0
  cyc1 : ∀ p : P1, ∃ k : Int, p = k • L.hash1 "Bls12381"
  cyc2 : ∀ q : P2, ∃ k : Int, q = k • L.hash2 "Bls12381"
  mul1 : ∀ p k, 0 ≤ k → L.mul1 p k = k • p
  mul2 : ∀ q k, 0 ≤ k → L.mul2 q k = k • q
  final : ∀ p q, L.finalExp (L.miller p q) = L.pair p q
  final_mul : ∀ a b, L.finalExp (a * b) = L.finalExp a * L.finalExp b
  pair_ne : ∀ p q, L.pair p q ≠ 0
  add_left : ∀ p p' q, L.pair (p + p') q = L.pair p q * L.pair p' q
  add_right : ∀ p q q', L.pair p (q + q') = L.pair p q * L.pair p q'
  nondeg : L.pair (L.hash1 "Bls12381") (L.hash2 "Bls12381") ≠ 1
  pow : ∀ a k, L.pow a k = a ^ k

/-- The mathematics behind the library. -/
def alg (L : PLib P1 P2 K) : Alg P1 P2 K :=
  ⟨L.hash1 "Bls12381", L.hash2 "Bls12381", L.hash1, L.hash2, L.miller, L.finalExp, L.pair⟩

/-! ## Discipline: update in place only what is yours -/

/-- The variable a call updates in place. -/
def inplace : Cmd → Option Nat
  | .one c | .two c => match c with
    | .addInplace x _ | .subInplace x _ | .doubleInplace x | .negateInplace x | .mulInplace x _ => some x
    | _ => none
  | _ => none

/-- The variables that have a point of their own after the call: made by it, or had
one and were neither overwritten nor copied. -/
def own (o : Nat → Prop) : Cmd → Nat → Prop
  | .handle x y => fun v => o v ∧ v ≠ x ∧ v ≠ y
  | .one c | .two c => match c with
    | .generator x => fun v => o v ∧ v ≠ x
    | .copyPoint x _ | .add x _ _ | .sub x _ _ | .double x _ | .negate x _ | .mulBase x _ | .mul x _ _
    | .hash x _ _ _ => fun v => v = x ∨ o v
    | _ => o
  | _ => o

/-- Every in-place update is of a variable with a point of its own. -/
def Disciplined [AddCommGroup P1] [AddCommGroup P2] [DivInvMonoid K] (L : PLib P1 P2 K) :
    Full P1 P2 K → (Nat → Prop) → List Cmd → Prop
  | _, _, [] => True
  | w, o, c :: cs => (∀ x, inplace c = some x → o x) ∧
    match step L w c with
    | .ok w' => Disciplined L w' (own o c) cs
    | .throws => Disciplined L w o cs
    | .ub => True

/-! ## Simulation -/

structure Inv (L : PLib P1 P2 K) (s : St P1 P2) (o : Nat → Prop) : Prop where
  g1 : s.heap[0]? = some (.inl (L.hash1 "Bls12381"))
  g2 : s.heap[1]? = some (.inr (L.hash2 "Bls12381"))
  live : ∀ x h, s.vars x = some h → h < s.heap.length
  own : ∀ x, o x → ∃ h, s.vars x = some h ∧ 2 ≤ h ∧ ∀ y, y ≠ x → s.vars y ≠ some h

theorem look_alloc {L : PLib P1 P2 K} {s : St P1 P2} {o : Nat → Prop} (hI : Inv L s o) (x : Nat) (c : P1 ⊕ P2)
    (y : Nat) : (look (alloc s x c) y).map Prod.snd = if y = x then some c else (look s y).map Prod.snd := by
  unfold look alloc
  dsimp only
  by_cases h : y = x
  · simp [h]
  · rw [if_neg h, if_neg h]
    cases hv : s.vars y with
    | none => rfl
    | some k =>
      have := hI.live y k hv
      simp [List.getElem?_append_left this]

theorem alloc_inv {L : PLib P1 P2 K} {s : St P1 P2} {o o' : Nat → Prop} (hI : Inv L s o) (x : Nat) (c : P1 ⊕ P2)
    (ho : ∀ v, o' v → v = x ∨ o v) : Inv L (alloc s x c) o' := by
  have hlen : 2 ≤ s.heap.length := by
    have := hI.g2
    rw [List.getElem?_eq_some_iff] at this
    obtain ⟨h, -⟩ := this
    omega
  refine ⟨?_, ?_, ?_, ?_⟩
  · simp only [alloc]
    rw [List.getElem?_append_left (by omega)]; exact hI.g1
  · simp only [alloc]
    rw [List.getElem?_append_left (by omega)]; exact hI.g2
  · intro y h hy
    simp only [alloc] at hy ⊢
    rw [List.length_append]
    split_ifs at hy with he
    · simp only [Option.some.injEq] at hy
      simp only [List.length_cons, List.length_nil]; omega
    · have := hI.live y h hy; omega
  · intro v hv
    rcases ho v hv with rfl | h
    · refine ⟨s.heap.length, by simp [alloc], hlen, fun y hy => ?_⟩
      simp only [alloc, if_neg hy]
      intro he
      have := hI.live y _ he
      omega
    · by_cases hvx : v = x
      · subst hvx
        refine ⟨s.heap.length, by simp [alloc], hlen, fun y hy => ?_⟩
        simp only [alloc, if_neg hy]
        intro he
        have := hI.live y _ he
        omega
      · obtain ⟨k, h1, h2, h3⟩ := hI.own v h
        refine ⟨k, by simp only [alloc, if_neg hvx]; exact h1, h2, fun y hy => ?_⟩
        simp only [alloc]
        split_ifs with he
        · have := hI.live v k h1
          simp only [ne_eq, Option.some.injEq]; omega
        · exact h3 y hy

theorem look_store {L : PLib P1 P2 K} {s : St P1 P2} {o : Nat → Prop} (hI : Inv L s o) (x : Nat) (hx : o x)
    (c : P1 ⊕ P2) (y : Nat) :
    (look (store s (cell s x) c) y).map Prod.snd = if y = x then some c else (look s y).map Prod.snd := by
  obtain ⟨k, h1, h2, h3⟩ := hI.own x hx
  have hc : cell s x = k := by simp [cell, h1]
  have hl := hI.live x k h1
  rw [hc]
  unfold look store
  dsimp only
  by_cases h : y = x
  · subst h
    simp [h1, hl]
  · rw [if_neg h]
    cases hv : s.vars y with
    | none => rfl
    | some j =>
      have hne : k ≠ j := by rintro rfl; exact h3 y h hv
      simp [List.getElem?_set_ne hne]

theorem store_inv {L : PLib P1 P2 K} {s : St P1 P2} {o : Nat → Prop} (hI : Inv L s o) (x : Nat) (hx : o x)
    (c : P1 ⊕ P2) : Inv L (store s (cell s x) c) o := by
  obtain ⟨k, h1, h2, h3⟩ := hI.own x hx
  have hc : cell s x = k := by simp [cell, h1]
  rw [hc]
  refine ⟨?_, ?_, ?_, ?_⟩
  · simp only [store]; rw [List.getElem?_set_ne (by omega)]; exact hI.g1
  · simp only [store]; rw [List.getElem?_set_ne (by omega)]; exact hI.g2
  · intro y h hy; simp only [store, List.length_set]; exact hI.live y h hy
  · intro v hv; exact hI.own v hv

/-- The outcome agrees with the specification, and the invariant goes on. -/
def Agrees (L : PLib P1 P2 K) (o : Nat → Prop) (r : Out (Full P1 P2 K)) (r' : Out (Env P1 P2 K)) : Prop :=
  match r, r' with
  | .ok w, .ok e => view w = e ∧ Inv L w.s o
  | .throws, .throws => True
  | .ub, .ub => True
  | _, _ => False

theorem view_s (w : Full P1 P2 K) (s : St P1 P2) (x : Nat) (c : P1 ⊕ P2)
    (h : ∀ y, (look s y).map Prod.snd = if y = x then some c else (look w.s y).map Prod.snd) :
    view { w with s := s } = (view w).set x c := by
  unfold view Env.set
  simp only [Env.mk.injEq, and_true]
  funext y
  exact h y

variable [AddCommGroup P1] [AddCommGroup P2]

omit [AddCommGroup P1] [AddCommGroup P2] in
theorem un_agrees {P : Type} (get : P1 ⊕ P2 → Option P) (L : PLib P1 P2 K) (w : Full P1 P2 K) (o' : Nat → Prop)
    (y : Nat) (f : P → Out (St P1 P2)) (f' : P → Out (Env P1 P2 K))
    (h : ∀ p, Agrees L o' (lift w (f p)) (f' p)) :
    Agrees L o' (lift w (un get w.s y f)) (one get (view w) y f') := by
  unfold un one
  cases hl : look w.s y with
  | none =>
    have : (view w).pt y = none := by simp [view, hl]
    rw [this]; exact trivial
  | some a =>
    have : (view w).pt y = some a.2 := by simp [view, hl]
    rw [this]
    dsimp only
    cases hg : get a.2 with
    | none => exact trivial
    | some p => exact h p

omit [AddCommGroup P1] [AddCommGroup P2] in
theorem bin_agrees {P : Type} (get : P1 ⊕ P2 → Option P) (L : PLib P1 P2 K) (w : Full P1 P2 K) (o' : Nat → Prop)
    (y z : Nat) (f : P → P → St P1 P2) (f' : P → P → Env P1 P2 K)
    (h : ∀ p q, view { w with s := f p q } = f' p q ∧ Inv L (f p q) o') :
    Agrees L o' (lift w (bin get w.s y z f)) (both get get (view w) y z f') := by
  unfold bin both
  cases hl : look w.s y with
  | none =>
    have : (view w).pt y = none := by simp [view, hl]
    rw [this]; exact trivial
  | some a =>
    have h1 : (view w).pt y = some a.2 := by simp [view, hl]
    rw [h1]
    cases hl' : look w.s z with
    | none =>
      have : (view w).pt z = none := by simp [view, hl']
      rw [this]; exact trivial
    | some b =>
      have h2 : (view w).pt z = some b.2 := by simp [view, hl']
      rw [h2]
      dsimp only
      cases hg : get a.2 with
      | none => exact trivial
      | some p =>
        cases hg' : get b.2 with
        | none => exact trivial
        | some q => exact h p q

theorem mod_smul {P : Type} [AddCommGroup P] {r : Nat} (hr : 0 < r) (ht : ∀ p : P, (r : Int) • p = 0)
    {mulF : P → Int → P} (hm : ∀ p k, 0 ≤ k → mulF p k = k • p) (p : P) (k : Int) : mulF p (k % r) = k • p := by
  rw [hm p _ (Int.emod_nonneg k (by omega))]
  conv_rhs => rw [← Int.emod_add_mul_ediv k r, add_smul, mul_comm, mul_smul, ht, smul_zero, add_zero]

omit [AddCommGroup P1] [AddCommGroup P2] in
/-- One call on a group. -/
theorem gstep_agrees {P : Type} [AddCommGroup P] (L : PLib P1 P2 K) (hr : 0 < L.r) (get : P1 ⊕ P2 → Option P)
    (put : P → P1 ⊕ P2) (hgp : ∀ p, get (put p) = some p) (g : Nat) (hg2 : g < 2) (gen : P) (mulF : P → Int → P)
    (hashF : String → P) (ht : ∀ p : P, (L.r : Int) • p = 0) (hm : ∀ p k, 0 ≤ k → mulF p k = k • p)
    (w : Full P1 P2 K) (o : Nat → Prop) (hI : Inv L w.s o) (hg : w.s.heap[g]? = some (put gen)) (c : GCmd)
    (ho : ∀ x, inplace (.one c) = some x → o x) :
    Agrees L (own o (.one c)) (lift w (gstep L.r get put g mulF hashF w.s c)) (gspec get put gen hashF (view w) c) := by
  have hmul := mod_smul hr ht hm
  have hglt : g < w.s.heap.length := by
    rw [List.getElem?_eq_some_iff] at hg
    exact hg.1
  have hA : ∀ x c, view { w with s := alloc w.s x c } = (view w).set x c ∧ Inv L (alloc w.s x c) (fun v => v = x ∨ o v) :=
    fun x c => ⟨view_s w _ x c (look_alloc hI x c), alloc_inv hI x c (fun v hv => hv)⟩
  have hS : ∀ x c, o x → view { w with s := store w.s (cell w.s x) c } = (view w).set x c ∧
      Inv L (store w.s (cell w.s x) c) o :=
    fun x c hx => ⟨view_s w _ x c (look_store hI x hx c), store_inv hI x hx c⟩
  cases c with
  | generator x =>
    refine ⟨?_, hI.g1, hI.g2, ?_, ?_⟩
    · refine view_s w _ x (put gen) (fun y => ?_)
      unfold look
      dsimp only
      by_cases h : y = x
      · simp [h, hg]
      · simp [h]
    · intro y h hy
      dsimp only at hy
      split_ifs at hy
      · simp only [Option.some.injEq] at hy; rw [← hy]; exact hglt
      · exact hI.live y h hy
    · rintro v ⟨hv, hvx⟩
      obtain ⟨k, h1, h2, h3⟩ := hI.own v hv
      refine ⟨k, by simp only [if_neg hvx]; exact h1, h2, fun y hy => ?_⟩
      dsimp only
      split_ifs with he
      · simp only [ne_eq, Option.some.injEq]; omega
      · exact h3 y hy
  | copyPoint x y => exact un_agrees get L w _ y _ _ fun p => hA x _
  | add x y z => exact bin_agrees get L w _ y z _ _ fun p q => hA x _
  | addInplace x y => exact bin_agrees get L w _ x y _ _ fun p q => hS x _ (ho x rfl)
  | sub x y z =>
    exact un_agrees get L w _ z _ _ fun q => un_agrees get L w _ y _ _ fun p => by
        rw [sub_eq_add_neg]; exact hA x _
  | subInplace x y =>
    exact un_agrees get L w _ y _ _ fun q => un_agrees get L w _ x _ _ fun p => by
        rw [sub_eq_add_neg]; exact hS x _ (ho x rfl)
  | double x y => exact un_agrees get L w _ y _ _ fun p => by rw [two_smul]; exact hA x _
  | doubleInplace x => exact un_agrees get L w _ x _ _ fun p => by rw [two_smul]; exact hS x _ (ho x rfl)
  | negate x y => exact un_agrees get L w _ y _ _ fun p => hA x _
  | negateInplace x => exact un_agrees get L w _ x _ _ fun p => hS x _ (ho x rfl)
  | mulBase x k =>
    simp only [gstep, hg, hgp]
    rw [hmul]
    exact hA x _
  | mul x y k => exact un_agrees get L w _ y _ _ fun p => by rw [hmul]; exact hA x _
  | mulInplace x k => exact un_agrees get L w _ x _ _ fun p => by rw [hmul]; exact hS x _ (ho x rfl)
  | hash x b m d =>
    cases b
    · exact trivial
    · exact hA x _

omit [AddCommGroup P1] [AddCommGroup P2] in
theorem onPoints_agrees (f : P1 → P2 → K) (L : PLib P1 P2 K) (w : Full P1 P2 K) (o : Nat → Prop) (hI : Inv L w.s o)
    (t x y : Nat) : Agrees L o (onPoints f w t x y) (both get1 get2 (view w) x y fun p q => (view w).setT t (f p q)) := by
  unfold onPoints both
  cases hl : look w.s x with
  | none =>
    have : (view w).pt x = none := by simp [view, hl]
    rw [this]; exact trivial
  | some a =>
    have h1 : (view w).pt x = some a.2 := by simp [view, hl]
    rw [h1]
    cases hl' : look w.s y with
    | none =>
      have : (view w).pt y = none := by simp [view, hl']
      rw [this]; exact trivial
    | some b =>
      have h2 : (view w).pt y = some b.2 := by simp [view, hl']
      rw [h2]
      dsimp only
      cases hg : get1 a.2 with
      | none => exact trivial
      | some p =>
        cases hg' : get2 b.2 with
        | none => exact trivial
        | some q => exact ⟨rfl, hI⟩

omit [AddCommGroup P1] [AddCommGroup P2] in
theorem gtSet_agrees (L : PLib P1 P2 K) (w : Full P1 P2 K) (o : Nat → Prop) (hI : Inv L w.s o) (t : Nat)
    (v : Option K) : Agrees L o (gtSet w t v) (gtv (view w) t v) := by
  cases v with
  | none => exact trivial
  | some v => exact ⟨rfl, hI⟩

theorem tors {P : Type} [AddCommGroup P] {r : Nat} {g : P} (h : (r : Int) • g = 0) (hc : ∀ p : P, ∃ k : Int, p = k • g)
    (p : P) : (r : Int) • p = 0 := by
  obtain ⟨k, rfl⟩ := hc p
  rw [smul_comm, h, smul_zero]

theorem step_agrees [Field K] (L : PLib P1 P2 K) (hL : Ok L) (w : Full P1 P2 K) (o : Nat → Prop) (hI : Inv L w.s o)
    (c : Cmd) (ho : ∀ x, inplace c = some x → o x) : Agrees L (own o c) (step L w c) (spec (alg L) (view w) c) := by
  have hr : 0 < L.r := hL.prime.pos
  cases c with
  | create =>
    have h1 : w.s.heap.set 0 (.inl (L.hash1 "Bls12381")) = w.s.heap :=
      List.ext_getElem? fun i => by
        rw [List.getElem?_set]
        split_ifs with h h'
        · rw [← h]; exact hI.g1.symm
        · exact absurd (List.getElem?_eq_some_iff.1 hI.g1).1 h'
        · rfl
    have h2 : w.s.heap.set 1 (.inr (L.hash2 "Bls12381")) = w.s.heap :=
      List.ext_getElem? fun i => by
        rw [List.getElem?_set]
        split_ifs with h h'
        · rw [← h]; exact hI.g2.symm
        · exact absurd (List.getElem?_eq_some_iff.1 hI.g2).1 h'
        · rfl
    have : step L w .create = .ok w := by
      simp only [step, store, h1, h2]
    rw [this]
    exact ⟨rfl, hI⟩
  | handle x y =>
    refine ⟨?_, hI.g1, hI.g2, ?_, ?_⟩
    · unfold view
      simp only [Env.mk.injEq, and_true]
      funext z
      unfold look
      dsimp only
      split_ifs <;> rfl
    · intro z h hz
      dsimp only at hz
      split_ifs at hz
      · exact hI.live y h hz
      · exact hI.live z h hz
    · rintro v ⟨hv, hvx, hvy⟩
      obtain ⟨k, h1, h2, h3⟩ := hI.own v hv
      refine ⟨k, by simp only [if_neg hvx]; exact h1, h2, fun z hz => ?_⟩
      dsimp only
      split_ifs with he
      · exact h3 y (Ne.symm hvy)
      · exact h3 z hz
  | one c =>
    exact gstep_agrees L hr get1 .inl (fun _ => rfl) 0 (by omega) _ L.mul1 L.hash1 (tors hL.ord1 hL.cyc1) hL.mul1 w o
      hI hI.g1 c ho
  | two c =>
    exact gstep_agrees L hr get2 .inr (fun _ => rfl) 1 (by omega) _ L.mul2 L.hash2 (tors hL.ord2 hL.cyc2) hL.mul2 w o
      hI hI.g2 c ho
  | miller t x y => exact onPoints_agrees L.miller L w o hI t x y
  | finalExp t u => exact gtSet_agrees L w o hI t _
  | pairing t x y => exact onPoints_agrees L.pair L w o hI t x y
  | gtOne t => exact gtSet_agrees L w o hI t (some 1)
  | gtMul t u v => exact gtSet_agrees L w o hI t _
  | gtMulInplace t u => exact gtSet_agrees L w o hI t _
  | gtInv t u => exact gtSet_agrees L w o hI t _
  | gtDiv t u v => exact gtSet_agrees L w o hI t _
  | gtPow t u k =>
    have := gtSet_agrees L w o hI t ((w.gt u).map fun a => L.pow a k)
    simp only [hL.pow] at this
    simp only [step, hL.pow]
    exact this
  | gtPowInplace t k =>
    have := gtSet_agrees L w o hI t ((w.gt t).map fun a => L.pow a k)
    simp only [hL.pow] at this
    simp only [step, hL.pow]
    exact this

theorem run_agrees [Field K] (L : PLib P1 P2 K) (hL : Ok L) (cs : List Cmd) : ∀ (w : Full P1 P2 K) (o : Nat → Prop),
    Inv L w.s o → Disciplined L w o cs →
    (runBy (step L) w cs).map view = runBy (spec (alg L)) (view w) cs ∧
    ∀ w', runBy (step L) w cs = .ok w' → ∃ o', Inv L w'.s o' := by
  induction cs with
  | nil => intro w o hI _; exact ⟨rfl, fun w' h => by cases h; exact ⟨o, hI⟩⟩
  | cons c cs ih =>
    intro w o hI hd
    obtain ⟨h1, h2⟩ := hd
    have ha := step_agrees L hL w o hI c h1
    simp only [runBy]
    cases hs : step L w c with
    | ok w' =>
      rw [hs] at ha h2
      cases hp : spec (alg L) (view w) c with
      | ok e =>
        rw [hp] at ha
        obtain ⟨rfl, hI'⟩ := ha
        exact ih w' _ hI' h2
      | throws => rw [hp] at ha; exact ha.elim
      | ub => rw [hp] at ha; exact ha.elim
    | throws =>
      rw [hs] at ha h2
      cases hp : spec (alg L) (view w) c with
      | ok e => rw [hp] at ha; exact ha.elim
      | throws => exact ih w _ hI h2
      | ub => rw [hp] at ha; exact ha.elim
    | ub =>
      rw [hs] at ha
      cases hp : spec (alg L) (view w) c with
      | ok e => rw [hp] at ha; exact ha.elim
      | throws => rw [hp] at ha; exact ha.elim
      | ub => exact ⟨rfl, fun _ h => by cases h⟩

omit [AddCommGroup P1] [AddCommGroup P2] in
theorem init_inv (L : PLib P1 P2 K) : Inv L (init L).s (fun _ => False) :=
  ⟨rfl, rfl, fun _ _ h => by simp [init] at h, fun _ h => h.elim⟩

/-! ## The pairing -/

variable [Field K]

theorem pair_zero_left {L : PLib P1 P2 K} (hL : Ok L) (q : P2) : L.pair 0 q = 1 := by
  have h := hL.add_left 0 0 q
  rw [add_zero] at h
  have h0 := hL.pair_ne 0 q
  exact (mul_left_cancel₀ h0 (by rw [mul_one]; exact h)).symm

theorem pair_zero_right {L : PLib P1 P2 K} (hL : Ok L) (p : P1) : L.pair p 0 = 1 := by
  have h := hL.add_right p 0 0
  rw [add_zero] at h
  have h0 := hL.pair_ne p 0
  exact (mul_left_cancel₀ h0 (by rw [mul_one]; exact h)).symm

/-- The pairing in a fixed second argument, as a homomorphism. -/
noncomputable def homL {L : PLib P1 P2 K} (hL : Ok L) (q : P2) : P1 →+ Additive Kˣ where
  toFun p := Additive.ofMul (Units.mk0 (L.pair p q) (hL.pair_ne p q))
  map_zero' := by
    apply Additive.toMul.injective; ext; simp [pair_zero_left hL]
  map_add' p p' := by
    apply Additive.toMul.injective; ext; simp [hL.add_left]

noncomputable def homR {L : PLib P1 P2 K} (hL : Ok L) (p : P1) : P2 →+ Additive Kˣ where
  toFun q := Additive.ofMul (Units.mk0 (L.pair p q) (hL.pair_ne p q))
  map_zero' := by
    apply Additive.toMul.injective; ext; simp [pair_zero_right hL]
  map_add' p p' := by
    apply Additive.toMul.injective; ext; simp [hL.add_right]

theorem pair_smul_left {L : PLib P1 P2 K} (hL : Ok L) (a : Int) (p : P1) (q : P2) :
    L.pair (a • p) q = L.pair p q ^ a := by
  have h := map_zsmul (homL hL q) a p
  have h := congrArg (fun x => ((Additive.toMul x : Kˣ) : K)) h
  simpa [homL] using h

theorem pair_smul_right {L : PLib P1 P2 K} (hL : Ok L) (b : Int) (p : P1) (q : P2) :
    L.pair p (b • q) = L.pair p q ^ b := by
  have h := map_zsmul (homR hL p) b q
  have h := congrArg (fun x => ((Additive.toMul x : Kˣ) : K)) h
  simpa [homR] using h

/-- `e(g1, g2)`. -/
def base (L : PLib P1 P2 K) : K := L.pair (L.hash1 "Bls12381") (L.hash2 "Bls12381")

theorem base_zpow_eq {L : PLib P1 P2 K} (hL : Ok L) (c d : Int) : base L ^ c = base L ^ d ↔ c ≡ d [ZMOD L.r] := by
  have hne : base L ≠ 0 := hL.pair_ne _ _
  have hr : base L ^ (L.r : Int) = 1 := by
    rw [base, ← pair_smul_left hL, hL.ord1, pair_zero_left hL]
  have : Fact L.r.Prime := ⟨hL.prime⟩
  have ho : orderOf (Units.mk0 (base L) hne) = L.r := by
    apply orderOf_eq_prime
    · ext; simpa using hr
    · intro h; exact hL.nondeg (by simpa [base] using congrArg Units.val h)
  have h1 := orderOf_dvd_sub_iff_zpow_eq_zpow (x := Units.mk0 (base L) hne) (a := c) (b := d)
  rw [ho] at h1
  rw [Int.modEq_comm, Int.modEq_iff_dvd, h1, Units.ext_iff]
  simp

/-! ## Exponents -/

/-- Programs on exponents: the pairing multiplies; in the target group `c` stands
for `e(g1, g2) ^ c`. -/
def expAlg (h1 h2 : String → Int) : Alg Int Int (Multiplicative Int) where
  g1 := 1
  g2 := 1
  hash1 := h1
  hash2 := h2
  miller a b := Multiplicative.ofAdd (a * b)
  finalExp c := c
  pair a b := Multiplicative.ofAdd (a * b)

/-- What the exponents stand for. -/
def interp (L : PLib P1 P2 K) (e : Env Int Int (Multiplicative Int)) : Env P1 P2 K where
  pt x := (e.pt x).map (Sum.map (fun a => a • L.hash1 "Bls12381") (fun b => b • L.hash2 "Bls12381"))
  gt t := (e.gt t).map fun c => base L ^ Multiplicative.toAdd c

/-- The call is neither of the halves of a pairing. -/
def whole : Cmd → Bool
  | .miller _ _ _ => false
  | .finalExp _ _ => false
  | _ => true

theorem set_interp (L : PLib P1 P2 K) (e : Env Int Int (Multiplicative Int)) (x : Nat) (c : Int ⊕ Int) :
    (interp L e).set x (Sum.map (fun a => a • L.hash1 "Bls12381") (fun b => b • L.hash2 "Bls12381") c) =
      interp L (e.set x c) := by
  unfold interp Env.set
  simp only [Env.mk.injEq, and_true]
  funext y
  split_ifs <;> rfl

theorem setT_interp (L : PLib P1 P2 K) (e : Env Int Int (Multiplicative Int)) (t : Nat) (c : Multiplicative Int) :
    (interp L e).setT t (base L ^ Multiplicative.toAdd c) = interp L (e.setT t c) := by
  unfold interp Env.setT
  simp only [Env.mk.injEq, true_and]
  funext y
  split_ifs <;> rfl

theorem one_interp {P : Type} (L : PLib P1 P2 K) (get : P1 ⊕ P2 → Option P) (getI : Int ⊕ Int → Option Int)
    (φ : Int → P)
    (hget : ∀ c, get (Sum.map (fun a => a • L.hash1 "Bls12381") (fun b => b • L.hash2 "Bls12381") c) = (getI c).map φ)
    (e : Env Int Int (Multiplicative Int)) (y : Nat) (f : P → Out (Env P1 P2 K))
    (f' : Int → Out (Env Int Int (Multiplicative Int))) (hf : ∀ a, f (φ a) = (f' a).map (interp L)) :
    one get (interp L e) y f = (one getI e y f').map (interp L) := by
  unfold one
  cases h : e.pt y with
  | none => simp [interp, h, Out.map]
  | some c =>
    have : (interp L e).pt y =
        some (Sum.map (fun a => a • L.hash1 "Bls12381") (fun b => b • L.hash2 "Bls12381") c) := by
      simp [interp, h]
    rw [this]
    dsimp only
    rw [hget]
    cases getI c with
    | none => rfl
    | some a => exact hf a

theorem both_interp {P Q : Type} (L : PLib P1 P2 K) (get : P1 ⊕ P2 → Option P) (getI : Int ⊕ Int → Option Int)
    (φ : Int → P)
    (hget : ∀ c, get (Sum.map (fun a => a • L.hash1 "Bls12381") (fun b => b • L.hash2 "Bls12381") c) = (getI c).map φ)
    (get' : P1 ⊕ P2 → Option Q) (getI' : Int ⊕ Int → Option Int) (ψ : Int → Q)
    (hget' : ∀ c, get' (Sum.map (fun a => a • L.hash1 "Bls12381") (fun b => b • L.hash2 "Bls12381") c) = (getI' c).map ψ)
    (e : Env Int Int (Multiplicative Int)) (y z : Nat) (f : P → Q → Env P1 P2 K)
    (f' : Int → Int → Env Int Int (Multiplicative Int)) (hf : ∀ a b, f (φ a) (ψ b) = interp L (f' a b)) :
    both get get' (interp L e) y z f = (both getI getI' e y z f').map (interp L) := by
  unfold both
  cases h : e.pt y with
  | none => simp [interp, h, Out.map]
  | some c =>
    have h1 : (interp L e).pt y =
        some (Sum.map (fun a => a • L.hash1 "Bls12381") (fun b => b • L.hash2 "Bls12381") c) := by
      simp [interp, h]
    rw [h1]
    cases h' : e.pt z with
    | none => simp [interp, h', Out.map]
    | some d =>
      have h2 : (interp L e).pt z =
          some (Sum.map (fun a => a • L.hash1 "Bls12381") (fun b => b • L.hash2 "Bls12381") d) := by
        simp [interp, h']
      rw [h2]
      dsimp only
      rw [hget, hget']
      cases getI c with
      | none => rfl
      | some a =>
        cases getI' d with
        | none => rfl
        | some b => simp only [Option.map_some, Out.map, hf]

theorem gspec_interp {P : Type} [AddCommGroup P] (L : PLib P1 P2 K) (get : P1 ⊕ P2 → Option P)
    (put : P → P1 ⊕ P2) (getI : Int ⊕ Int → Option Int) (putI : Int → Int ⊕ Int) (g : P) (hashF : String → P)
    (hI : String → Int)
    (hget : ∀ c, get (Sum.map (fun a => a • L.hash1 "Bls12381") (fun b => b • L.hash2 "Bls12381") c) =
      (getI c).map (fun a => a • g))
    (hput : ∀ a : Int, put (a • g) =
      Sum.map (fun a => a • L.hash1 "Bls12381") (fun b => b • L.hash2 "Bls12381") (putI a))
    (hh : ∀ m, hashF m = hI m • g) (e : Env Int Int (Multiplicative Int)) (c : GCmd) :
    gspec get put g hashF (interp L e) c = (gspec getI putI 1 hI e c).map (interp L) := by
  have hs : ∀ x a, (interp L e).set x (put (a • g)) = interp L (e.set x (putI a)) := fun x a => by
    rw [hput, set_interp]
  have h1 : ∀ x, (interp L e).set x (put g) = interp L (e.set x (putI 1)) := fun x => by
    have := hs x 1; rwa [one_smul] at this
  cases c with
  | generator x => simp only [gspec, Out.map, h1]
  | copyPoint x y => exact one_interp L get getI _ hget e y _ _ fun a => by simp only [Out.map, hs]
  | add x y z =>
    exact both_interp L get getI _ hget get getI _ hget e y z _ _ fun a b => by
      rw [← add_smul, hs]
  | addInplace x y =>
    exact both_interp L get getI _ hget get getI _ hget e x y _ _ fun a b => by
      rw [← add_smul, hs]
  | sub x y z =>
    exact one_interp L get getI _ hget e z _ _ fun b => one_interp L get getI _ hget e y _ _ fun a => by
      dsimp only [Out.map]; rw [← sub_smul, hs]
  | subInplace x y =>
    exact one_interp L get getI _ hget e y _ _ fun b => one_interp L get getI _ hget e x _ _ fun a => by
      dsimp only [Out.map]; rw [← sub_smul, hs]
  | double x y =>
    exact one_interp L get getI _ hget e y _ _ fun a => by dsimp only [Out.map]; rw [smul_smul, hs]; rfl
  | doubleInplace x =>
    exact one_interp L get getI _ hget e x _ _ fun a => by dsimp only [Out.map]; rw [smul_smul, hs]; rfl
  | negate x y =>
    exact one_interp L get getI _ hget e y _ _ fun a => by dsimp only [Out.map]; rw [← neg_smul, hs]
  | negateInplace x =>
    exact one_interp L get getI _ hget e x _ _ fun a => by dsimp only [Out.map]; rw [← neg_smul, hs]
  | mulBase x k => simp only [gspec, Out.map, hs]; rw [smul_eq_mul, mul_one]
  | mul x y k =>
    exact one_interp L get getI _ hget e y _ _ fun a => by dsimp only [Out.map]; rw [smul_smul, hs]; rfl
  | mulInplace x k =>
    exact one_interp L get getI _ hget e x _ _ fun a => by dsimp only [Out.map]; rw [smul_smul, hs]; rfl
  | hash x b m d =>
    cases b
    · rfl
    · simp only [gspec, if_true, Out.map, hh, hs]

theorem gtv_interp (L : PLib P1 P2 K) (e : Env Int Int (Multiplicative Int)) (t : Nat)
    (v : Option (Multiplicative Int)) :
    gtv (interp L e) t (v.map fun c => base L ^ Multiplicative.toAdd c) = (gtv e t v).map (interp L) := by
  cases v with
  | none => rfl
  | some c => simp only [Option.map_some, gtv, Out.map, setT_interp]

theorem spec_interp {L : PLib P1 P2 K} (hL : Ok L) (h1 h2 : String → Int)
    (hh1 : ∀ m, L.hash1 m = h1 m • L.hash1 "Bls12381") (hh2 : ∀ m, L.hash2 m = h2 m • L.hash2 "Bls12381")
    (e : Env Int Int (Multiplicative Int)) (c : Cmd) (hc : whole c = true) :
    spec (alg L) (interp L e) c = (spec (expAlg h1 h2) e c).map (interp L) := by
  have hne : base L ≠ 0 := hL.pair_ne _ _
  cases c with
  | create => rfl
  | handle x y =>
    simp only [spec, Out.map, Out.ok.injEq]
    unfold interp
    simp only [Env.mk.injEq, and_true]
    funext z
    split_ifs <;> rfl
  | one c =>
    exact gspec_interp L get1 .inl get1 .inl _ _ h1 (fun c => by cases c <;> rfl) (fun _ => rfl) hh1 e c
  | two c =>
    exact gspec_interp L get2 .inr get2 .inr _ _ h2 (fun c => by cases c <;> rfl) (fun _ => rfl) hh2 e c
  | miller t x y => simp [whole] at hc
  | finalExp t u => simp [whole] at hc
  | pairing t x y =>
    refine both_interp L get1 get1 _ (fun c => by cases c <;> rfl) get2 get2 _ (fun c => by cases c <;> rfl) e x y _ _
      fun a b => ?_
    rw [← setT_interp]
    congr 1
    rw [show (alg L).pair = L.pair from rfl, pair_smul_left hL, pair_smul_right hL, ← zpow_mul, mul_comm b a]
    rfl
  | gtOne t =>
    have := gtv_interp L e t (some 1)
    simp only [Option.map_some, toAdd_one, zpow_zero] at this
    exact this
  | gtMul t u v =>
    have := gtv_interp L e t ((e.gt u).bind fun a => (e.gt v).map fun b => a * b)
    rw [spec, spec, ← this]
    congr 1
    cases hu : e.gt u <;> cases hv : e.gt v <;> simp [interp, hu, hv, zpow_add₀ hne]
  | gtMulInplace t u =>
    have := gtv_interp L e t ((e.gt t).bind fun a => (e.gt u).map fun b => a * b)
    rw [spec, spec, ← this]
    congr 1
    cases hu : e.gt t <;> cases hv : e.gt u <;> simp [interp, hu, hv, zpow_add₀ hne]
  | gtInv t u =>
    have := gtv_interp L e t ((e.gt u).map fun a => a⁻¹)
    rw [spec, spec, ← this]
    congr 1
    cases hu : e.gt u <;> simp [interp, hu]
  | gtDiv t u v =>
    have := gtv_interp L e t ((e.gt u).bind fun a => (e.gt v).map fun b => a / b)
    rw [spec, spec, ← this]
    congr 1
    cases hu : e.gt u <;> cases hv : e.gt v <;> simp [interp, hu, hv, zpow_sub₀ hne]
  | gtPow t u k =>
    have := gtv_interp L e t ((e.gt u).map fun a => a ^ k)
    rw [spec, spec, ← this]
    congr 1
    cases hu : e.gt u <;> simp [interp, hu, zpow_mul, mul_comm k]
  | gtPowInplace t k =>
    have := gtv_interp L e t ((e.gt t).map fun a => a ^ k)
    rw [spec, spec, ← this]
    congr 1
    cases hu : e.gt t <;> simp [interp, hu, zpow_mul, mul_comm k]

theorem specRun_interp {L : PLib P1 P2 K} (hL : Ok L) (h1 h2 : String → Int)
    (hh1 : ∀ m, L.hash1 m = h1 m • L.hash1 "Bls12381") (hh2 : ∀ m, L.hash2 m = h2 m • L.hash2 "Bls12381")
    (cs : List Cmd) : ∀ e : Env Int Int (Multiplicative Int), (∀ c ∈ cs, whole c = true) →
    runBy (spec (alg L)) (interp L e) cs = (runBy (spec (expAlg h1 h2)) e cs).map (interp L) := by
  induction cs with
  | nil => intro e _; rfl
  | cons c cs ih =>
    intro e hw
    have hc := spec_interp hL h1 h2 hh1 hh2 e c (hw c (by simp))
    have ih := fun e => ih e (fun c hc => hw c (by simp [hc]))
    simp only [runBy]
    rw [hc]
    cases spec (expAlg h1 h2) e c with
    | ok e' => exact ih e'
    | throws => exact ih e
    | ub => rfl

/-! ## The theorems -/

/-- C136.  A program of curve and pairing calls that updates in place only points of
its own leaves in its variables what the mathematics says; calls without operands
throw and change nothing; and behaviour is undefined exactly when a point of one
group is used as one of the other. -/
theorem C136_programs_partial (L : PLib P1 P2 K) (hL : Ok L) (cs : List Cmd)
    (hd : Disciplined L (init L) (fun _ => False) cs) : (run L cs).map view = specRun (alg L) cs :=
  (run_agrees L hL cs _ _ (init_inv L) hd).1

/-- C136.  Such a program computes on the exponents: whatever integers (of either
sign, of any size) it multiplies with, a point is `a • g1` or `b • g2` and an element
of the target group is `e(g1, g2) ^ c`, with `a`, `b`, `c` got from the same program on
integers, where the pairing is multiplication. -/
theorem C136_exponents_partial (L : PLib P1 P2 K) (hL : Ok L) (h1 h2 : String → Int)
    (hh1 : ∀ m, L.hash1 m = h1 m • L.hash1 "Bls12381") (hh2 : ∀ m, L.hash2 m = h2 m • L.hash2 "Bls12381")
    (cs : List Cmd) (hd : Disciplined L (init L) (fun _ => False) cs) (hw : ∀ c ∈ cs, whole c = true) :
    (run L cs).map view = (specRun (expAlg h1 h2) cs).map (interp L) := by
  rw [C136_programs_partial L hL cs hd, specRun, specRun, ← specRun_interp hL h1 h2 hh1 hh2 cs _ hw]
  rfl

/-- C136.  Comparing two elements of the target group after such a program decides
the equation between their exponents modulo the order. -/
theorem C136_equation_partial (L : PLib P1 P2 K) (hL : Ok L) (h1 h2 : String → Int)
    (hh1 : ∀ m, L.hash1 m = h1 m • L.hash1 "Bls12381") (hh2 : ∀ m, L.hash2 m = h2 m • L.hash2 "Bls12381")
    (cs : List Cmd) (hd : Disciplined L (init L) (fun _ => False) cs) (hw : ∀ c ∈ cs, whole c = true)
    (w : Full P1 P2 K) (hrun : run L cs = .ok w) (t u : Nat) (A B : K) (hA : w.gt t = some A) (hB : w.gt u = some B) :
    ∃ e c d, specRun (expAlg h1 h2) cs = .ok e ∧ e.gt t = some (Multiplicative.ofAdd c) ∧
      e.gt u = some (Multiplicative.ofAdd d) ∧ (A = B ↔ c ≡ d [ZMOD L.r]) := by
  have h := C136_exponents_partial L hL h1 h2 hh1 hh2 cs hd hw
  rw [hrun] at h
  cases he : specRun (expAlg h1 h2) cs with
  | throws => rw [he] at h; cases h
  | ub => rw [he] at h; cases h
  | ok e =>
    rw [he] at h
    simp only [Out.map, Out.ok.injEq] at h
    have ht := congrFun (congrArg Env.gt h) t
    have hu := congrFun (congrArg Env.gt h) u
    simp only [view, interp, hA] at ht
    simp only [view, interp, hB] at hu
    cases ht' : e.gt t with
    | none => rw [ht'] at ht; cases ht
    | some c =>
      cases hu' : e.gt u with
      | none => rw [hu'] at hu; cases hu
      | some d =>
        rw [ht'] at ht
        rw [hu'] at hu
        simp only [Option.map_some, Option.some.injEq] at ht hu
        exact ⟨e, c.toAdd, d.toAdd, rfl, ht', hu', by rw [ht, hu]; exact base_zpow_eq hL _ _⟩

/-- Verification of a short signature: the public key `pk = sk • g2`, the hash of the
message, the generator, and two pairings. -/
def verify (s pk h g t u : Nat) (sk : Int) (m dst : String) : List Cmd :=
  [.two (.mulBase pk sk), .one (.hash h true m dst), .two (.generator g), .pairing t s g, .pairing u h pk]

/-- C136.  After any such program, and for every integer `sk`, message and point `S`:
the two pairings of signature verification agree exactly when `S` is `sk` times the
hash of the message. -/
theorem C136_signature_partial (L : PLib P1 P2 K) (hL : Ok L) (cs : List Cmd)
    (hd : Disciplined L (init L) (fun _ => False) cs) (w : Full P1 P2 K) (hrun : run L cs = .ok w)
    (s pk h g t u : Nat) (hne : [s, pk, h, g].Nodup) (htu : t ≠ u) (sk : Int) (m dst : String) (S : P1)
    (hS : (view w).pt s = some (.inl S)) :
    ∃ w' A B, runBy (step L) w (verify s pk h g t u sk m dst) = .ok w' ∧ w'.gt t = some A ∧ w'.gt u = some B ∧
      (A = B ↔ S = sk • L.hash1 m) := by
  obtain ⟨o, hI⟩ := (run_agrees L hL cs _ _ (init_inv L) hd).2 w hrun
  have hdv : Disciplined L w o (verify s pk h g t u sk m dst) := by
    have hn : ∀ c ∈ verify s pk h g t u sk m dst, inplace c = none := by
      intro c hc
      simp only [verify, List.mem_cons, List.not_mem_nil, or_false] at hc
      rcases hc with rfl | rfl | rfl | rfl | rfl <;> rfl
    generalize verify s pk h g t u sk m dst = l at hn
    clear hS hI hrun
    induction l generalizing w o with
    | nil => trivial
    | cons c l ih =>
      refine ⟨fun x hx => (by rw [hn c (by simp)] at hx; cases hx), ?_⟩
      have ih := fun w o => ih w o (fun c hc => hn c (by simp [hc]))
      split
      · exact ih _ _
      · exact ih _ _
      · trivial
  have hr := (run_agrees L hL _ w o hI hdv).1
  simp only [List.nodup_cons, List.mem_cons, List.not_mem_nil, or_false, not_or] at hne
  obtain ⟨⟨n1, n2, n3⟩, ⟨n4, n5⟩, n6, -⟩ := hne
  have hspec : ∃ e, runBy (spec (alg L)) (view w) (verify s pk h g t u sk m dst) = .ok e ∧
      e.gt t = some (L.pair S (L.hash2 "Bls12381")) ∧
      e.gt u = some (L.pair (L.hash1 m) (sk • L.hash2 "Bls12381")) := by
    refine ⟨(((((view w).set pk (.inr (sk • L.hash2 "Bls12381"))).set h (.inl (L.hash1 m))).set g
      (.inr (L.hash2 "Bls12381"))).setT t (L.pair S (L.hash2 "Bls12381"))).setT u
      (L.pair (L.hash1 m) (sk • L.hash2 "Bls12381")), ?_, ?_, ?_⟩
    · simp only [verify, runBy, spec, gspec, if_true, both, Env.set, Env.setT, hS, alg, get1, get2, if_neg n1, if_neg n2,
        if_neg n3, if_neg n4, if_neg n5, if_neg n6, if_neg (Ne.symm n4)]
    · simp [Env.setT, htu]
    · simp [Env.setT]
  obtain ⟨e, he, ht, hu⟩ := hspec
  rw [he] at hr
  cases hw' : runBy (step L) w (verify s pk h g t u sk m dst) with
  | throws => rw [hw'] at hr; cases hr
  | ub => rw [hw'] at hr; cases hr
  | ok w' =>
    rw [hw'] at hr
    simp only [Out.map, Out.ok.injEq] at hr
    refine ⟨w', L.pair S (L.hash2 "Bls12381"), L.pair (L.hash1 m) (sk • L.hash2 "Bls12381"), rfl, ?_, ?_, ?_⟩
    · have := congrFun (congrArg Env.gt hr) t
      exact this.trans ht
    · have := congrFun (congrArg Env.gt hr) u
      exact this.trans hu
    · rw [pair_smul_right hL, ← pair_smul_left hL]
      obtain ⟨a, rfl⟩ := hL.cyc1 S
      obtain ⟨b, hb⟩ := hL.cyc1 (L.hash1 m)
      rw [hb, smul_smul, pair_smul_left hL, pair_smul_left hL]
      constructor
      · intro h
        have h := (base_zpow_eq hL _ _).1 h
        obtain ⟨k, hk⟩ := h.dvd
        have : a = sk * b - L.r * k := by rw [← hk]; ring
        rw [this, sub_smul, mul_comm (L.r : Int), mul_smul k, hL.ord1, smul_zero, sub_zero]
      · intro h
        rw [← pair_smul_left hL, ← pair_smul_left hL, h]

/-- A product of pairings with one final exponentiation. -/
def multi (t u : Nat) (xs : List (Nat × Nat)) : List Cmd :=
  .gtOne t :: (xs.flatMap fun x => [.miller u x.1 x.2, .gtMulInplace t u]) ++ [.finalExp t t]

/-- C136.  Multiplying the halves from `MillerLoop` and applying `FinalExp` once gives
the product of the pairings, for any number of pairs of points. -/
theorem C136_multi (L : PLib P1 P2 K) (hL : Ok L) (w : Full P1 P2 K) (t u : Nat) (htu : t ≠ u)
    (xs : List ((Nat × Nat) × (P1 × P2)))
    (hx : ∀ x ∈ xs, (view w).pt x.1.1 = some (.inl x.2.1) ∧ (view w).pt x.1.2 = some (.inr x.2.2)) :
    ∃ w', runBy (step L) w (multi t u (xs.map Prod.fst)) = .ok w' ∧ w'.s = w.s ∧
      w'.gt t = some (xs.map fun x => L.pair x.2.1 x.2.2).prod := by
  have hf1 : L.finalExp 1 = 1 := by
    have h := hL.final_mul (L.miller 0 0) 1
    rw [mul_one, hL.final, pair_zero_left hL, one_mul] at h
    exact h.symm
  have key : ∀ (xs : List ((Nat × Nat) × (P1 × P2))) (w : Full P1 P2 K) (a : K), w.gt t = some a →
      (∀ x ∈ xs, (view w).pt x.1.1 = some (.inl x.2.1) ∧ (view w).pt x.1.2 = some (.inr x.2.2)) →
      ∃ w', runBy (step L) w (((xs.map Prod.fst).flatMap fun x => [Cmd.miller u x.1 x.2, Cmd.gtMulInplace t u]) ++
        [.finalExp t t]) = .ok w' ∧ w'.s = w.s ∧
        w'.gt t = some (L.finalExp a * (xs.map fun x => L.pair x.2.1 x.2.2).prod) := by
    intro xs
    induction xs with
    | nil =>
      intro w a ha _
      refine ⟨{ w with gt := fun i => if i = t then some (L.finalExp a) else w.gt i }, ?_, rfl, by simp⟩
      simp only [List.map_nil, List.flatMap_nil, List.nil_append, runBy, step, ha, Option.map_some, gtSet]
    | cons x xs ih =>
      intro w a ha hx
      obtain ⟨hp, hq⟩ := hx x (by simp)
      have hp' : ∃ i, look w.s x.1.1 = some (i, .inl x.2.1) := by
        simp only [view, Option.map_eq_some_iff] at hp
        obtain ⟨⟨i, c⟩, h, rfl⟩ := hp
        exact ⟨i, h⟩
      have hq' : ∃ i, look w.s x.1.2 = some (i, .inr x.2.2) := by
        simp only [view, Option.map_eq_some_iff] at hq
        obtain ⟨⟨i, c⟩, h, rfl⟩ := hq
        exact ⟨i, h⟩
      obtain ⟨i, hi⟩ := hp'
      obtain ⟨j, hj⟩ := hq'
      simp only [List.map_cons, List.flatMap_cons, List.cons_append, List.nil_append, runBy, step, onPoints, hi, hj,
        get1, get2, gtSet, if_neg htu, ha, Option.bind_some, if_true, Option.map_some]
      obtain ⟨w', h1, h2, h3⟩ := ih
        { w with gt := fun k => if k = t then some (a * L.miller x.2.1 x.2.2) else
          if k = u then some (L.miller x.2.1 x.2.2) else w.gt k } (a * L.miller x.2.1 x.2.2) (by simp)
        (fun y hy => hx y (by simp [hy]))
      refine ⟨w', h1, h2, ?_⟩
      rw [h3, hL.final_mul, hL.final, List.prod_cons, mul_assoc]
  obtain ⟨w', h1, h2, h3⟩ := key xs { w with gt := fun k => if k = t then some 1 else w.gt k } 1 (by simp) hx
  refine ⟨w', ?_, h2, by rw [h3, hf1, one_mul]⟩
  simp only [multi, List.cons_append, runBy, step, gtSet]
  exact h1

/-- C136, fails.  Doubling in place the point `GetGenerator` returned doubles the
generator: `MulBase(1)` then gives `2 • g1`, where the mathematics says `g1`. -/
theorem C136_generator_violated (L : PLib P1 P2 K) (hL : Ok L) (h2 : L.r ≠ 2) :
    ∃ w, run L [.one (.generator 0), .one (.doubleInplace 0), .one (.mulBase 1 1)] = .ok w ∧
      (view w).pt 1 = some (.inl ((2 : Int) • L.hash1 "Bls12381")) ∧
      (2 : Int) • L.hash1 "Bls12381" ≠ L.hash1 "Bls12381" ∧ (2 : Int) • L.hash1 "Bls12381" ≠ 0 := by
  have hr := hL.prime.two_le
  have hm : (1 : Int) % L.r = 1 := Int.emod_eq_of_lt (by omega) (by omega)
  have h1 : L.hash1 "Bls12381" ≠ 0 := fun h => hL.nondeg (by rw [h, pair_zero_left hL])
  refine ⟨_, rfl, ?_, ?_, ?_⟩
  · simp [view, look, alloc, store, cell, init, hm, hL.mul1, two_smul]
  · rw [two_smul]
    intro h
    exact h1 (by simpa using h)
  · intro h
    have := (base_zpow_eq hL 2 0).1 (by rw [base, ← pair_smul_left hL, h, pair_zero_left hL, zpow_zero])
    have h3 := Int.natAbs_dvd_natAbs.2 this.symm.dvd
    simp only [sub_zero, Int.natAbs_natCast] at h3
    have := Nat.le_of_dvd (by decide) h3
    simp only [Int.reduceAbs] at this
    have : L.r ≤ 2 := this
    omega

/-- C136, fails.  Making another pairing group writes to a point the program holds:
after `GetGenerator` and `DoubleInplace` the variable is `2 • g1`, and after another
`Create` it is `g1` again. -/
theorem C136_create_violated (L : PLib P1 P2 K) :
    (∃ w, run L [.one (.generator 0), .one (.doubleInplace 0)] = .ok w ∧
      (view w).pt 0 = some (.inl ((2 : Int) • L.hash1 "Bls12381"))) ∧
    ∃ w, run L [.one (.generator 0), .one (.doubleInplace 0), .create] = .ok w ∧
      (view w).pt 0 = some (.inl (L.hash1 "Bls12381")) := by
  refine ⟨⟨_, rfl, ?_⟩, ⟨_, rfl, ?_⟩⟩
  · simp [view, look, store, cell, init, two_smul]
  · simp [view, look, store, cell, init]

/-- C136, fails.  Points of the two groups swapped, or mixed in an addition, are not
found out: the code reads the one as the other. -/
theorem C136_confusion_violated (L : PLib P1 P2 K) :
    run L [.one (.generator 0), .two (.generator 1), .pairing 0 1 0] = .ub ∧
    run L [.one (.generator 0), .two (.generator 1), .one (.add 2 0 1)] = .ub := ⟨rfl, rfl⟩

/-- C136, fails.  The domain separation tag of `HashToCurve` is ignored: for all tags
the points are the same. -/
theorem C136_dst_violated (L : PLib P1 P2 K) (w : Full P1 P2 K) (x : Nat) (b : Bool) (m dst dst' : String) :
    step L w (.one (.hash x b m dst)) = step L w (.one (.hash x b m dst')) ∧
    step L w (.two (.hash x b m dst)) = step L w (.two (.hash x b m dst')) := ⟨rfl, rfl⟩

end

/-! ## A case: order 5, in the field of 11 elements -/

instance : Fact (Nat.Prime 11) := ⟨by decide⟩

/-- Both groups are `ZMod 5`, the pairing is `4 ^ (a * b)` modulo 11, the final
exponentiation squares. -/
def toy : PLib (ZMod 5) (ZMod 5) (ZMod 11) where
  r := 5
  hash1 s := (s.length + 1 : Nat)
  hash2 s := (s.length + 1 : Nat)
  mul1 p k := k • p
  mul2 p k := k • p
  miller a b := 2 ^ (a * b).val
  finalExp x := x ^ 2
  pair a b := 4 ^ (a * b).val
  pow a k := a ^ k

theorem toy_ok : Ok toy where
  prime := by decide
  ord1 := by decide
  ord2 := by decide
  cyc1 p := ⟨(4 * p.val : Nat), by revert p; decide⟩
  cyc2 p := ⟨(4 * p.val : Nat), by revert p; decide⟩
  mul1 _ _ _ := rfl
  mul2 _ _ _ := rfl
  final := by decide
  final_mul a b := mul_pow a b 2
  pair_ne := by decide
  add_left := by decide
  add_right := by decide
  nondeg := by decide
  pow _ _ := rfl

/-- Own points are updated, the generator is not; pairings are compared. -/
def toyProg : List Cmd :=
  [.one (.generator 0), .one (.mul 1 0 (-3)), .one (.addInplace 1 0), .two (.mulBase 2 7), .two (.doubleInplace 2),
   .create, .pairing 0 1 2, .one (.hash 3 true "m" ""), .handle 4 3, .pairing 1 3 2, .gtMulInplace 0 1,
   .gtPow 2 0 (-2), .gtInv 3 2, .pairing 4 9 2]

example : Disciplined toy (init toy) (fun _ => False) toyProg := by
  simp [toyProg, Disciplined, inplace, own, step, lift, gstep, un, bin, look, alloc, store, cell, init, onPoints, gtSet,
    get1, get2, toy]

example : ∃ w, run toy toyProg = .ok w ∧ (view w).pt 1 = some (.inl 2) ∧ w.gt 0 ≠ w.gt 3 := by
  refine ⟨_, rfl, ?_, ?_⟩
  · decide +kernel
  · decide +kernel

example : ∀ c ∈ toyProg, whole c = true := by decide

end Verif.Ecc.Pairing
