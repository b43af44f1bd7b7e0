/-
C115 (a)-(d): linear combinations, the gates of the prover, and the agreement of prover and
verifier on the circuit a program describes.
-/
import Verif.Zkp.Bp.R1csModel
import Verif.Zkp.Bp.Range

namespace Yacl.Bp.R1cs

variable {F M : Type} [Field F] [DecidableEq F] [AddCommGroup M] [Module F M] [DecidableEq M]

/-! ### specification -/

/-- The value of a linear combination under an assignment of the variables: `Σ c · a(x)`. -/
def lcVal (a : Var → F) (lc : LC F) : F := (lc.map fun t => t.2 * a t.1).sum

/-- The assignment of a prover. -/
def asg (s : PSt F M) : Var → F
  | .committed i => s.v.getD i 0
  | .left i => s.aL.getD i 0
  | .right i => s.aR.getD i 0
  | .out i => s.aO.getD i 0
  | .one => 1

/-- The variable belongs to the prover's circuit. -/
def Known (s : PSt F M) : Var → Prop
  | .committed i => i < s.v.length
  | .left i => i < s.aL.length
  | .right i => i < s.aR.length
  | .out i => i < s.aO.length
  | .one => True

/-- What the verifier holds after the same calls: commitments instead of values, the number of
    multipliers instead of their wires, the same constraints, callbacks and transcript. -/
def verifierOf (s : PSt F M) (queue : List M) : VSt F M :=
  ⟨s.Vs, queue, s.aL.length, s.cons, s.deferred, s.pending, s.st⟩

/-! ### (a) linear combinations -/

omit [DecidableEq F] in
theorem lcVal_append (a : Var → F) (x y : LC F) : lcVal a (x ++ y) = lcVal a x + lcVal a y := by
  simp [lcVal]

omit [DecidableEq F] in
theorem lcVal_map (a : Var → F) (x : LC F) (c : F) :
    lcVal a (x.map fun t => (t.1, t.2 * c)) = lcVal a x * c := by
  induction x with
  | nil => simp [lcVal]
  | cons t x ih =>
    simp only [lcVal, List.map_cons, List.sum_cons] at ih ⊢
    rw [ih]
    ring

omit [DecidableEq F] in
theorem lcVal_neg (a : Var → F) (x : LC F) : lcVal a (x.map fun t => (t.1, -t.2)) = -lcVal a x := by
  have := lcVal_map a x (-1)
  simpa using this

omit [DecidableEq F] in
/-- C115 (a): the operators on linear combinations are the operations on their values. -/
theorem C115_linear (a : Var → F) (x y : LC F) (c : F) (v : Var) :
    lcVal a (lcAdd x y) = lcVal a x + lcVal a y ∧ lcVal a (lcSub x y) = lcVal a x - lcVal a y ∧
      lcVal a (lcMul x c) = lcVal a x * c ∧ lcVal a (lcNeg x) = -lcVal a x ∧
      lcVal a (ofVar v) = a v ∧ lcVal a (ofScalar c) = c * a .one := by
  refine ⟨lcVal_append a x y, ?_, lcVal_map a x c, lcVal_neg a x, ?_, ?_⟩
  · rw [lcSub, lcVal_append, lcVal_neg, sub_eq_add_neg]
  · simp [lcVal, ofVar]
  · simp [lcVal, ofScalar]

example : lcVal (fun v => match v with | .left i => (i : ℚ) | _ => 1)
    (lcSub (lcMul (ofVar (.left 3)) 5) (lcNeg (ofScalar 2))) = 17 := by
  norm_num [lcVal, lcSub, lcMul, lcNeg, ofVar, ofScalar]

omit [DecidableEq F] [DecidableEq M] [AddCommGroup M] [Module F M] in
theorem valueOf_eq (s : PSt F M) (v : Var) :
    (Known s v → valueOf s.v s.aL s.aR s.aO v = some (asg s v)) ∧
      (¬ Known s v → valueOf s.v s.aL s.aR s.aO v = none) := by
  cases v <;> simp +contextual [Known, valueOf, asg, List.getD_eq_getElem?_getD]

omit [DecidableEq F] [DecidableEq M] [AddCommGroup M] [Module F M] in
theorem evalLoop_eq (s : PSt F M) (lc : LC F) (acc : F) (h : ∀ t ∈ lc, Known s t.1) :
    evalLoop s.v s.aL s.aR s.aO lc acc = some (acc + lcVal (asg s) lc) := by
  induction lc generalizing acc with
  | nil => simp [evalLoop, lcVal]
  | cons t ts ih =>
    simp only [evalLoop, (valueOf_eq s t.1).1 (h t (by simp)), Option.bind_eq_bind, Option.bind_some]
    rw [ih _ (fun t ht => h t (by simp [ht]))]
    simp only [lcVal, List.map_cons, List.sum_cons]
    congr 1
    ring

omit [DecidableEq F] [DecidableEq M] [AddCommGroup M] [Module F M] in
theorem evalLoop_known (s : PSt F M) (lc : LC F) (acc r : F)
    (h : evalLoop s.v s.aL s.aR s.aO lc acc = some r) : ∀ t ∈ lc, Known s t.1 := by
  induction lc generalizing acc with
  | nil => simp
  | cons t ts ih =>
    by_cases hk : Known s t.1
    · simp only [evalLoop, (valueOf_eq s t.1).1 hk, Option.bind_eq_bind, Option.bind_some] at h
      intro t' ht'
      rcases List.mem_cons.1 ht' with rfl | ht'
      · exact hk
      · exact ih _ h t' ht'
    · simp [evalLoop, (valueOf_eq s t.1).2 hk] at h

omit [DecidableEq F] [DecidableEq M] [AddCommGroup M] [Module F M] in
/-- C115 (a): the prover evaluates a linear combination of its own variables to its value. -/
theorem C115_eval (s : PSt F M) (lc : LC F) (h : ∀ t ∈ lc, Known s t.1) :
    eval s lc = some (lcVal (asg s) lc) := by
  rw [eval, evalLoop_eq s lc 0 h, zero_add]

/-! ### invariants of the prover -/

/-- What holds after every call. -/
structure Wf (B Bb : M) (s : PSt F M) : Prop where
  lenR : s.aR.length = s.aL.length
  lenO : s.aO.length = s.aL.length
  lenB : s.vBlinding.length = s.v.length
  comm : s.Vs = List.zipWith (fun v b => v • B + b • Bb) s.v s.vBlinding
  gate : ∀ i, s.aO.getD i 0 = s.aL.getD i 0 * s.aR.getD i 0
  pend : ∀ i, s.pending = some i → i < s.aL.length

omit [DecidableEq F] in
theorem getD_snoc {l : List F} (x : F) (i : Nat) :
    (l ++ [x]).getD i 0 = if i = l.length then x else l.getD i 0 := by
  by_cases h : i < l.length
  · rw [if_neg (by omega)]
    simp [List.getD_eq_getElem?_getD, List.getElem?_append_left h]
  · by_cases h' : i = l.length
    · rw [if_pos h', h']
      simp [List.getD_eq_getElem?_getD]
    · rw [if_neg h']
      simp [List.getD_eq_getElem?_getD, List.getElem?_eq_none_iff.2 (show l.length ≤ i by omega),
        List.getElem?_eq_none_iff.2 (show (l ++ [x]).length ≤ i by simp; omega)]

omit [DecidableEq F] in
theorem getD_set' {l : List F} (j : Nat) (x : F) (i : Nat) (h : j < l.length) :
    (l.set j x).getD i 0 = if i = j then x else l.getD i 0 := by
  by_cases h' : i = j
  · subst h'
    simp [List.getD_eq_getElem?_getD, h]
  · rw [if_neg h']
    simp [List.getD_eq_getElem?_getD, List.getElem?_set_ne (Ne.symm h')]

omit [DecidableEq F] in
theorem zipWith_snoc {X Y Z : Type} (f : X → Y → Z) (l : List X) (k : List Y) (h : k.length = l.length) (x : X) (y : Y) :
    List.zipWith f (l ++ [x]) (k ++ [y]) = List.zipWith f l k ++ [f x y] := by
  rw [List.zipWith_append h.symm]
  rfl

/-- A new gate keeps the invariant. -/
theorem wf_push {B Bb : M} {s : PSt F M} (hw : Wf B Bb s) (l r : F) (cons : List (LC F)) (p : Option Nat)
    (hp : ∀ i, p = some i → i < s.aL.length + 1) :
    Wf B Bb { s with aL := s.aL ++ [l], aR := s.aR ++ [r], aO := s.aO ++ [l * r], cons := cons, pending := p } := by
  refine ⟨by simp [hw.lenR], by simp [hw.lenO], hw.lenB, hw.comm, ?_, by simpa using hp⟩
  intro i
  simp only [getD_snoc, hw.lenR, hw.lenO]
  split
  · rfl
  · exact hw.gate i

omit [DecidableEq F] [DecidableEq M] [AddCommGroup M] [Module F M] in
/-- A new gate changes no value. -/
theorem known_push {s : PSt F M} (x : Var) (hx : Known s x) (l r o : F) (cons : List (LC F)) (p : Option Nat) :
    Known { s with aL := s.aL ++ [l], aR := s.aR ++ [r], aO := s.aO ++ [o], cons := cons, pending := p } x ∧
    asg { s with aL := s.aL ++ [l], aR := s.aR ++ [r], aO := s.aO ++ [o], cons := cons, pending := p } x = asg s x := by
  cases x with
  | committed i => exact ⟨hx, rfl⟩
  | one => exact ⟨hx, rfl⟩
  | left i =>
    simp only [Known] at hx
    refine ⟨?_, ?_⟩
    · simp only [Known, List.length_append]; omega
    · simp only [asg, getD_snoc]; rw [if_neg (by omega)]
  | right i =>
    simp only [Known] at hx
    refine ⟨?_, ?_⟩
    · simp only [Known, List.length_append]; omega
    · simp only [asg, getD_snoc]; rw [if_neg (by omega)]
  | out i =>
    simp only [Known] at hx
    refine ⟨?_, ?_⟩
    · simp only [Known, List.length_append]; omega
    · simp only [asg, getD_snoc]; rw [if_neg (by omega)]

omit [DecidableEq F] [DecidableEq M] [AddCommGroup M] [Module F M] in
/-- Completing the pending gate changes only its right and output wire. -/
theorem known_set {s : PSt F M} (x : Var) (hx : Known s x) (j : Nat) (r o : F) (hR : j < s.aR.length)
    (hO : j < s.aO.length) :
    Known { s with pending := none, aR := s.aR.set j r, aO := s.aO.set j o } x ∧
    (x ≠ .right j ∧ x ≠ .out j →
      asg { s with pending := none, aR := s.aR.set j r, aO := s.aO.set j o } x = asg s x) := by
  cases x with
  | committed i => exact ⟨hx, fun _ => rfl⟩
  | one => exact ⟨hx, fun _ => rfl⟩
  | left i => exact ⟨hx, fun _ => rfl⟩
  | right i =>
    refine ⟨by simpa [Known] using hx, fun hne => ?_⟩
    simp only [asg]
    rw [getD_set' j _ i hR, if_neg (by rintro rfl; exact hne.1 rfl)]
  | out i =>
    refine ⟨by simpa [Known] using hx, fun hne => ?_⟩
    simp only [asg]
    rw [getD_set' j _ i hO, if_neg (by rintro rfl; exact hne.2 rfl)]

/-- Every call keeps the invariant; values of variables that are in use stay the same; the
    verifier making the same calls follows. -/
theorem runP_spec (E : Env F M) (B Bb : M) (p : Prog F) (s s' : PSt F M) (hw : Wf B Bb s)
    (h : runP E B Bb p s = some s') :
    Wf B Bb s' ∧
    (∀ x, Known s x → Known s' x ∧ ((∀ i, s.pending = some i → x ≠ .right i ∧ x ≠ .out i) → asg s' x = asg s x)) ∧
    (∀ i, s'.pending = some i → s.pending = some i ∨ s.aL.length ≤ i) ∧
    ∃ new, s'.Vs = s.Vs ++ new ∧ ∀ rest, runV E p (verifierOf s (new ++ rest)) = some (verifierOf s' rest) := by
  induction p generalizing s with
  | ret =>
    cases h
    exact ⟨hw, fun x hx => ⟨hx, fun _ => rfl⟩, fun i hi => Or.inl hi, [], by simp, fun rest => rfl⟩
  | fail => cases h
  | commit v b k ih =>
    simp only [runP] at h
    have hw' : Wf B Bb (⟨s.v ++ [v], s.vBlinding ++ [b], s.aL, s.aR, s.aO, s.cons, s.deferred, s.pending,
        s.Vs ++ [pedersen B Bb v b], appendPoint E "V" (pedersen B Bb v b) s.st⟩ : PSt F M) := by
      refine ⟨hw.lenR, hw.lenO, by simp [hw.lenB], ?_, hw.gate, hw.pend⟩
      simp only [zipWith_snoc _ _ _ hw.lenB, pedersen_eq]
      rw [← hw.comm]
    obtain ⟨h1, h2, h3, new, h4, h5⟩ := ih _ _ hw' h
    refine ⟨h1, ?_, h3, pedersen B Bb v b :: new, by simp [h4], ?_⟩
    · intro x hx
      have hk : Known (⟨s.v ++ [v], s.vBlinding ++ [b], s.aL, s.aR, s.aO, s.cons, s.deferred, s.pending,
        s.Vs ++ [pedersen B Bb v b], appendPoint E "V" (pedersen B Bb v b) s.st⟩ : PSt F M) x := by
        cases x <;> simp_all [Known] <;> omega
      refine ⟨(h2 x hk).1, fun hp => ((h2 x hk).2 hp).trans ?_⟩
      cases x with
      | committed i =>
        have : i < s.v.length := hx
        simp only [asg, getD_snoc]
        rw [if_neg (by omega)]
      | _ => rfl
    · intro rest
      have hl : s.Vs.length = s.v.length := by rw [hw.comm]; simp [hw.lenB]
      have := h5 rest
      simp only [runV, verifierOf, List.cons_append] at this ⊢
      rw [hl]
      exact this
  | append label msg k ih =>
    simp only [runP] at h
    obtain ⟨h1, h2, h3, new, h4, h5⟩ := ih _ (by exact ⟨hw.lenR, hw.lenO, hw.lenB, hw.comm, hw.gate, hw.pend⟩) h
    exact ⟨h1, h2, h3, new, h4, h5⟩
  | challenge label k ih =>
    simp only [runP] at h
    obtain ⟨h1, h2, h3, new, h4, h5⟩ := ih _ _ (by exact ⟨hw.lenR, hw.lenO, hw.lenB, hw.comm, hw.gate, hw.pend⟩) h
    exact ⟨h1, h2, h3, new, h4, h5⟩
  | multiply l r k ih =>
    simp only [runP, Option.bind_eq_bind, Option.bind_eq_some_iff] at h
    obtain ⟨lv, -, rv, -, h⟩ := h
    have hw' := wf_push hw lv rv (s.cons ++ [lcSub l (ofVar (.left s.aL.length)), lcSub r (ofVar (.right s.aL.length))])
      s.pending (fun i hi => Nat.lt_succ_of_lt (hw.pend i hi))
    obtain ⟨h1, h2, h3, new, h4, h5⟩ := ih _ _ _ _ hw' h
    refine ⟨h1, ?_, ?_, new, h4, ?_⟩
    · intro x hx
      obtain ⟨hk, he⟩ := known_push x hx _ _ _ _ _
      exact ⟨(h2 x hk).1, fun hp => ((h2 x hk).2 hp).trans he⟩
    · intro i hi
      rcases h3 i hi with h | h
      · exact Or.inl h
      · simp at h; right; omega
    · intro rest
      have := h5 rest
      simp only [runV, verifierOf, List.length_append, List.length_cons, List.length_nil] at this ⊢
      exact this
  | allocate val k ih =>
    simp only [runP, Option.bind_eq_bind, Option.bind_eq_some_iff] at h
    obtain ⟨x₀, -, h⟩ := h
    cases hp : s.pending with
    | none =>
      simp only [hp] at h
      have hw' := wf_push hw x₀ 0 s.cons (some s.aL.length) (by simp)
      rw [mul_zero] at hw'
      obtain ⟨h1, h2, h3, new, h4, h5⟩ := ih _ _ hw' h
      have h0 : ∀ x, Known s x → ∀ i, some s.aL.length = some i → x ≠ .right i ∧ x ≠ .out i := by
        rintro x hx i hi
        cases hi
        constructor
        · rintro rfl
          simp only [Known, hw.lenR] at hx
          omega
        · rintro rfl
          simp only [Known, hw.lenO] at hx
          omega
      refine ⟨h1, ?_, ?_, new, h4, ?_⟩
      · intro x hx
        obtain ⟨hk, he⟩ := known_push x hx _ _ _ _ _
        exact ⟨(h2 x hk).1, fun _ => ((h2 x hk).2 (h0 x hx)).trans he⟩
      · intro i hi
        right
        rcases h3 i hi with h | h
        · cases h; exact Nat.le_refl _
        · simp at h; omega
      · intro rest
        have := h5 rest
        simp only [runV, verifierOf, hp, List.length_append, List.length_cons, List.length_nil] at this ⊢
        exact this
    | some j =>
      simp only [hp] at h
      have hj := hw.pend j hp
      have hw' : Wf B Bb { s with pending := none, aR := s.aR.set j x₀, aO := s.aO.set j (s.aL.getD j 0 * x₀) } := by
        refine ⟨by simp [hw.lenR], by simp [hw.lenO], hw.lenB, hw.comm, ?_, by simp⟩
        intro i
        simp only
        rw [getD_set' j _ i (by rw [hw.lenO]; exact hj), getD_set' j _ i (by rw [hw.lenR]; exact hj)]
        split
        · subst_vars; rfl
        · exact hw.gate i
      obtain ⟨h1, h2, h3, new, h4, h5⟩ := ih _ _ hw' h
      refine ⟨h1, ?_, ?_, new, h4, ?_⟩
      · intro x hx
        obtain ⟨hk, he⟩ := known_set x hx j x₀ (s.aL.getD j 0 * x₀) (by rw [hw.lenR]; exact hj)
          (by rw [hw.lenO]; exact hj)
        exact ⟨(h2 x hk).1, fun hne => ((h2 x hk).2 (by simp)).trans (he (hne j rfl))⟩
      · intro i hi
        rcases h3 i hi with h | h
        · cases h
        · exact Or.inr h
      · intro rest
        have := h5 rest
        simp only [runV, verifierOf, hp] at this ⊢
        exact this
  | allocMul val k ih =>
    simp only [runP, Option.bind_eq_bind, Option.bind_eq_some_iff] at h
    obtain ⟨x₀, -, h⟩ := h
    have hw' := wf_push hw x₀.1 x₀.2 s.cons s.pending (fun i hi => Nat.lt_succ_of_lt (hw.pend i hi))
    obtain ⟨h1, h2, h3, new, h4, h5⟩ := ih _ _ _ _ hw' h
    refine ⟨h1, ?_, ?_, new, h4, ?_⟩
    · intro x hx
      obtain ⟨hk, he⟩ := known_push x hx _ _ _ _ _
      exact ⟨(h2 x hk).1, fun hp => ((h2 x hk).2 hp).trans he⟩
    · intro i hi
      rcases h3 i hi with h | h
      · exact Or.inl h
      · simp at h; right; omega
    · intro rest
      have := h5 rest
      simp only [runV, verifierOf, List.length_append, List.length_cons, List.length_nil] at this ⊢
      exact this
  | constrain lc k ih =>
    simp only [runP] at h
    obtain ⟨h1, h2, h3, new, h4, h5⟩ := ih _ (by exact ⟨hw.lenR, hw.lenO, hw.lenB, hw.comm, hw.gate, hw.pend⟩) h
    exact ⟨h1, h2, h3, new, h4, h5⟩
  | defer cb k _ ih =>
    simp only [runP] at h
    obtain ⟨h1, h2, h3, new, h4, h5⟩ := ih _ (by exact ⟨hw.lenR, hw.lenO, hw.lenB, hw.comm, hw.gate, hw.pend⟩) h
    exact ⟨h1, h2, h3, new, h4, h5⟩

theorem wf_new (E : Env F M) (B Bb : M) (st : List Nat) : Wf B Bb (newP E st) :=
  ⟨rfl, rfl, rfl, rfl, by simp [newP], by simp [newP]⟩

/-- The callbacks of the second phase. -/
theorem deferred_spec (E : Env F M) (B Bb : M) (cbs : List (Prog F)) (s₀ s s' : PSt F M)
    (hw₀ : Wf B Bb s₀) (hw : Wf B Bb s) (hlen : s₀.aL.length ≤ s.aL.length)
    (hpend : ∀ i, s.pending = some i → s₀.aL.length ≤ i)
    (hk : ∀ x, Known s₀ x → Known s x ∧ asg s x = asg s₀ x)
    (h : cbs.foldlM (fun s cb => runP E B Bb cb s) s = some s') :
    Wf B Bb s' ∧ (∀ x, Known s₀ x → Known s' x ∧ asg s' x = asg s₀ x) ∧
    ∃ new, s'.Vs = s.Vs ++ new ∧
      ∀ rest, cbs.foldlM (fun s cb => runV E cb s) (verifierOf s (new ++ rest)) = some (verifierOf s' rest) := by
  induction cbs generalizing s with
  | nil =>
    cases h
    exact ⟨hw, hk, [], by simp, fun rest => rfl⟩
  | cons cb cbs ih =>
    simp only [List.foldlM_cons, Option.bind_eq_bind, Option.bind_eq_some_iff] at h
    obtain ⟨s₁, h1, h⟩ := h
    obtain ⟨hw1, hs, hp, new, hV, hv⟩ := runP_spec E B Bb cb s s₁ hw h1
    have hl1 : s₀.aL.length ≤ s₁.aL.length := by
      by_contra hc
      have := (hs (.left s₁.aL.length) (by simp only [Known]; omega)).1
      simp [Known] at this
    obtain ⟨hw2, hk2, new', hV', hv'⟩ := ih s₁ hw1 hl1
      (fun i hi => by
        rcases hp i hi with h | h
        · exact hpend i h
        · omega)
      (fun x hx => by
        obtain ⟨a, b⟩ := hk x hx
        refine ⟨(hs x a).1, ((hs x a).2 fun i hi => ?_).trans b⟩
        have := hpend i hi
        constructor
        · rintro rfl
          simp only [Known, hw₀.lenR] at hx
          omega
        · rintro rfl
          simp only [Known, hw₀.lenO] at hx
          omega) h
    refine ⟨hw2, hk2, new ++ new', by rw [hV', hV, List.append_assoc], fun rest => ?_⟩
    simp only [List.foldlM_cons, Option.bind_eq_bind, List.append_assoc]
    rw [hv (new' ++ rest)]
    exact hv' rest

/-- The second phase. -/
theorem randomize_spec (E : Env F M) (B Bb : M) (s s' : PSt F M) (hw : Wf B Bb s)
    (h : randomizeP E B Bb s = some s') :
    Wf B Bb s' ∧ (∀ x, Known s x → Known s' x ∧ asg s' x = asg s x) ∧
    ∃ new, s'.Vs = s.Vs ++ new ∧
      ∀ rest, randomizeV E (verifierOf s (new ++ rest)) = some (verifierOf s' rest) := by
  unfold randomizeP at h
  simp only at h
  by_cases hd : s.deferred.isEmpty
  · rw [if_pos hd] at h
    cases h
    refine ⟨⟨hw.lenR, hw.lenO, hw.lenB, hw.comm, hw.gate, by simp⟩, fun x hx => ⟨by cases x <;> exact hx, by cases x <;> rfl⟩,
      [], by simp, fun rest => ?_⟩
    simp [randomizeV, verifierOf, hd]
  · rw [if_neg hd] at h
    simp only [Option.bind_eq_bind, Option.bind_eq_some_iff] at h
    obtain ⟨s₁, h1, h⟩ := h
    cases h
    obtain ⟨a, b, new, c, d⟩ := deferred_spec E B Bb s.deferred s
      { s with pending := none, st := appendMessage E "dom-sep" (lbl "r1cs-2phase") s.st } s₁ hw
      (by exact ⟨hw.lenR, hw.lenO, hw.lenB, hw.comm, hw.gate, by simp⟩) (Nat.le_refl _) (by simp)
      (fun x hx => ⟨by cases x <;> exact hx, by cases x <;> rfl⟩) h1
    refine ⟨⟨a.lenR, a.lenO, a.lenB, a.comm, a.gate, a.pend⟩,
      fun x hx => ⟨by cases x <;> exact (b _ hx).1, (by cases x <;> exact (b _ hx).2)⟩, new, c, fun rest => ?_⟩
    have := d rest
    unfold randomizeV
    simp only [verifierOf] at this ⊢
    refine (if_neg hd).trans ?_
    simp only [Option.bind_eq_bind]
    rw [this]
    rfl

/-- C115 (b): in every state a program can bring the prover into, before and after the second
    phase, every output wire is the product of its input wires, and every commitment handed out is
    the Pedersen commitment to its value. -/
theorem C115_gates (E : Env F M) (B Bb : M) (prog : Prog F) (st : List Nat) (s s' : PSt F M)
    (h : runP E B Bb prog (newP E st) = some s) (h' : s' = s ∨ randomizeP E B Bb s = some s') :
    (∀ i, asg s' (.out i) = asg s' (.left i) * asg s' (.right i)) ∧
      s'.Vs.length = s'.v.length ∧ s'.vBlinding.length = s'.v.length ∧
      ∀ i, i < s'.v.length → s'.Vs.getD i 0 = s'.v.getD i 0 • B + s'.vBlinding.getD i 0 • Bb := by
  have hw := (runP_spec E B Bb prog _ s (wf_new E B Bb st) h).1
  have hw' : Wf B Bb s' := by
    rcases h' with rfl | h'
    · exact hw
    · exact (randomize_spec E B Bb s s' hw h').1
  refine ⟨hw'.gate, by rw [hw'.comm]; simp [hw'.lenB], hw'.lenB, fun i hi => ?_⟩
  rw [hw'.comm]
  simp [List.getD_eq_getElem?_getD, List.getElem?_zipWith, hi, hw'.lenB]

/-- C115 (c): later calls change no value a variable has, except that the second `Allocate` of a
    pair fills the right wire (and with it the output wire) the first one left open. -/
theorem C115_stable (E : Env F M) (B Bb : M) (p q : Prog F) (st : List Nat) (s s' : PSt F M)
    (h : runP E B Bb p (newP E st) = some s) (h' : runP E B Bb q s = some s') (x : Var) (hx : Known s x)
    (hopen : ∀ i, s.pending = some i → x ≠ .right i ∧ x ≠ .out i) :
    Known s' x ∧ asg s' x = asg s x := by
  have hw := (runP_spec E B Bb p _ s (wf_new E B Bb st) h).1
  have := (runP_spec E B Bb q s s' hw h').2.1 x hx
  exact ⟨this.1, this.2 hopen⟩

/-- C115 (d): a verifier making the prover's calls, and given the commitments the prover handed
    out, ends with the same number of multipliers, the same constraints, the same callbacks and
    the same transcript, before and after the second phase. -/
theorem C115_same_circuit (E : Env F M) (B Bb : M) (prog : Prog F) (st : List Nat) (s : PSt F M)
    (h : runP E B Bb prog (newP E st) = some s) :
    (∀ rest, runV E prog (newV E st (s.Vs ++ rest)) = some (verifierOf s rest)) ∧
    ∀ s', randomizeP E B Bb s = some s' →
      ∃ new, s'.Vs = s.Vs ++ new ∧ ∀ rest, randomizeV E (verifierOf s (new ++ rest)) = some (verifierOf s' rest) := by
  obtain ⟨hw, -, -, new, hV, hv⟩ := runP_spec E B Bb prog _ s (wf_new E B Bb st) h
  have hn : s.Vs = new := by simpa [newP] using hV
  refine ⟨fun rest => ?_, fun s' h' => (randomize_spec E B Bb s s' hw h').2.2⟩
  rw [hn]
  exact hv rest

/-! ### the flattened constraints -/

/-- The constraints combined with powers of `z`. -/
def combined (a : Var → F) (z : F) (cons : List (LC F)) : F :=
  ((List.range cons.length).map fun q => z ^ (q + 1) * lcVal a (cons.getD q [])).sum

omit [DecidableEq F] in
theorem combined_cons (a : Var → F) (z : F) (lc : LC F) (cons : List (LC F)) :
    combined a z (lc :: cons) = z * lcVal a lc + z * combined a z cons := by
  unfold combined
  rw [List.length_cons, List.range_succ_eq_map, List.map_cons, List.sum_cons, List.map_map, ← List.sum_map_mul_left]
  congr 1
  · simp
  · refine congrArg List.sum (List.map_congr_left fun q _ => ?_)
    simp only [Function.comp_def, List.getD_cons_succ, Nat.succ_eq_add_one]
    ring

/-- The weights applied to an assignment. -/
def weigh (s : PSt F M) (w : Weights F) : F :=
  dot w.wL s.aL + dot w.wR s.aR + dot w.wO s.aO - dot w.wV s.v - w.wc

/-- Weights of the circuit's size. -/
structure Fits (s : PSt F M) (w : Weights F) : Prop where
  L : w.wL.length = s.aL.length
  R : w.wR.length = s.aR.length
  O : w.wO.length = s.aO.length
  V : w.wV.length = s.v.length

omit [DecidableEq F] in
theorem dot_set (l g : List F) (i : Nat) (d : F) (hi : i < l.length) (hl : l.length = g.length) :
    dot (l.set i (l.getD i 0 + d)) g = dot l g + d * g.getD i 0 := by
  induction l generalizing g i with
  | nil => simp at hi
  | cons x l ih =>
    cases g with
    | nil => simp at hl
    | cons y g =>
      cases i with
      | zero =>
        simp only [List.set_cons_zero, List.getD_cons_zero, dot_cons, smul_eq_mul]
        ring
      | succ i =>
        simp only [List.set_cons_succ, List.getD_cons_succ, dot_cons, smul_eq_mul]
        rw [ih g i (by simpa using hi) (by simpa using hl)]
        ring

omit [DecidableEq F] [AddCommGroup M] [Module F M] [DecidableEq M] in
theorem addTerm_spec (s : PSt F M) (e : F) (w w' : Weights F) (t : Var × F) (hf : Fits s w)
    (h : addTerm true e w t = some w') :
    Fits s w' ∧ Known s t.1 ∧ weigh s w' = weigh s w + e * (t.2 * asg s t.1) := by
  obtain ⟨x, c⟩ := t
  cases x with
  | one =>
    simp only [addTerm, if_true, Option.some.injEq] at h
    subst h
    exact ⟨⟨hf.L, hf.R, hf.O, hf.V⟩, trivial, by simp only [weigh, asg]; ring⟩
  | committed i =>
    simp only [addTerm, addAt] at h
    split at h
    · rename_i hi
      cases h
      refine ⟨⟨hf.L, hf.R, hf.O, by simp [hf.V]⟩, by simp only [Known]; rw [← hf.V]; exact hi, ?_⟩
      simp only [weigh, asg]
      rw [dot_set _ _ _ _ hi hf.V]
      ring
    · cases h
  | left i =>
    simp only [addTerm, addAt] at h
    split at h
    · rename_i hi
      cases h
      refine ⟨⟨by simp [hf.L], hf.R, hf.O, hf.V⟩, by simp only [Known]; rw [← hf.L]; exact hi, ?_⟩
      simp only [weigh, asg]
      rw [dot_set _ _ _ _ hi hf.L]
      ring
    · cases h
  | right i =>
    simp only [addTerm, addAt] at h
    split at h
    · rename_i hi
      cases h
      refine ⟨⟨hf.L, by simp [hf.R], hf.O, hf.V⟩, by simp only [Known]; rw [← hf.R]; exact hi, ?_⟩
      simp only [weigh, asg]
      rw [dot_set _ _ _ _ hi hf.R]
      ring
    · cases h
  | out i =>
    simp only [addTerm, addAt] at h
    split at h
    · rename_i hi
      cases h
      refine ⟨⟨hf.L, hf.R, by simp [hf.O], hf.V⟩, by simp only [Known]; rw [← hf.O]; exact hi, ?_⟩
      simp only [weigh, asg]
      rw [dot_set _ _ _ _ hi hf.O]
      ring
    · cases h

omit [DecidableEq F] [AddCommGroup M] [Module F M] [DecidableEq M] in
theorem terms_spec (s : PSt F M) (e : F) (lc : LC F) (w w' : Weights F) (hf : Fits s w)
    (h : lc.foldlM (addTerm true e) w = some w') :
    Fits s w' ∧ (∀ t ∈ lc, Known s t.1) ∧ weigh s w' = weigh s w + e * lcVal (asg s) lc := by
  induction lc generalizing w with
  | nil =>
    cases h
    exact ⟨hf, by simp, by simp [lcVal]⟩
  | cons t lc ih =>
    simp only [List.foldlM_cons, Option.bind_eq_bind, Option.bind_eq_some_iff] at h
    obtain ⟨w₁, h1, h⟩ := h
    obtain ⟨a, b, c⟩ := addTerm_spec s e w w₁ t hf h1
    obtain ⟨a', b', c'⟩ := ih w₁ a h
    refine ⟨a', ?_, ?_⟩
    · intro t' ht'
      rcases List.mem_cons.1 ht' with rfl | ht'
      · exact b
      · exact b' t' ht'
    · rw [c', c]
      simp only [lcVal, List.map_cons, List.sum_cons]
      ring

omit [DecidableEq F] [AddCommGroup M] [Module F M] [DecidableEq M] in
theorem flattenLoop_spec (s : PSt F M) (z : F) (cons : List (LC F)) (e : F) (w w' : Weights F) (hf : Fits s w)
    (h : flattenLoop true z cons (e * z) w = some w') :
    Fits s w' ∧ (∀ lc ∈ cons, ∀ t ∈ lc, Known s t.1) ∧ weigh s w' = weigh s w + e * combined (asg s) z cons := by
  induction cons generalizing e w with
  | nil =>
    cases h
    exact ⟨hf, by simp, by simp [combined]⟩
  | cons lc cons ih =>
    simp only [flattenLoop, Option.bind_eq_bind, Option.bind_eq_some_iff] at h
    obtain ⟨w₁, h1, h⟩ := h
    obtain ⟨a, b, c⟩ := terms_spec s (e * z) lc w w₁ hf h1
    obtain ⟨a', b', c'⟩ := ih (e * z) w₁ a h
    refine ⟨a', ?_, ?_⟩
    · intro lc' hlc
      rcases List.mem_cons.1 hlc with rfl | hlc
      · exact b
      · exact b' lc' hlc
    · rw [c', c, combined_cons]
      ring

omit [DecidableEq F] in
theorem addTerm_const (e : F) (w w' : Weights F) (t : Var × F) (c : F) (h : addTerm false e w t = some w') :
    ∃ c', addTerm true e { w with wc := c } t = some { w' with wc := c' } := by
  obtain ⟨x, a⟩ := t
  cases x <;> simp only [addTerm, Option.map_eq_some_iff] at h ⊢
  case one => exact ⟨c - e * a, by simp at h; subst h; rfl⟩
  all_goals
    obtain ⟨l, hl, h⟩ := h
    exact ⟨c, l, hl, by rw [← h]⟩

omit [DecidableEq F] in
theorem flattenLoop_const (z : F) (cons : List (LC F)) (e : F) (w w' : Weights F) (c : F)
    (h : flattenLoop false z cons e w = some w') :
    ∃ c', flattenLoop true z cons e { w with wc := c } = some { w' with wc := c' } := by
  induction cons generalizing e w c with
  | nil =>
    cases h
    exact ⟨c, rfl⟩
  | cons lc cons ih =>
    simp only [flattenLoop, Option.bind_eq_bind, Option.bind_eq_some_iff] at h
    obtain ⟨w₁, h1, h⟩ := h
    have : ∀ (lc : LC F) (w w₁ : Weights F) (c : F), lc.foldlM (addTerm false e) w = some w₁ →
        ∃ c', lc.foldlM (addTerm true e) { w with wc := c } = some { w₁ with wc := c' } := by
      intro lc
      induction lc with
      | nil => intro w w₁ c h; cases h; exact ⟨c, rfl⟩
      | cons t lc ih =>
        intro w w₁ c h
        simp only [List.foldlM_cons, Option.bind_eq_bind, Option.bind_eq_some_iff] at h
        obtain ⟨w₂, h2, h⟩ := h
        obtain ⟨c₂, hc⟩ := addTerm_const e w w₂ t c h2
        obtain ⟨c', hc'⟩ := ih w₂ w₁ c₂ h
        exact ⟨c', by simp only [List.foldlM_cons, Option.bind_eq_bind]; rw [hc]; exact hc'⟩
    obtain ⟨c₁, hc₁⟩ := this lc w w₁ c h1
    obtain ⟨c', hc'⟩ := ih (e * z) w₁ c₁ h
    exact ⟨c', by simp only [flattenLoop, Option.bind_eq_bind]; rw [hc₁]; exact hc'⟩

omit [DecidableEq F] in
theorem dot_zeros (n : Nat) (g : List F) : dot (List.replicate n (0 : F)) g = 0 := by
  induction n generalizing g with
  | zero => cases g <;> rfl
  | succ n ih =>
    cases g with
    | nil => rfl
    | cons x g => rw [List.replicate_succ, dot_cons, ih]; simp

omit [DecidableEq F] [DecidableEq M] in
/-- C115 (e): the weights prover and verifier compute differ only in the constant, and applied to
    the prover's wires they give the combination of the values of the constraints with powers
    of `z`. -/
theorem C115_flatten (B Bb : M) (s : PSt F M) (hw : Wf B Bb s) (z : F) (w : Weights F)
    (h : flatten false s.aL.length s.v.length s.cons z = some w) :
    ∃ c, flatten true s.aL.length s.v.length s.cons z = some { w with wc := c } ∧
      Fits s w ∧ (∀ lc ∈ s.cons, ∀ t ∈ lc, Known s t.1) ∧
      dot w.wL s.aL + dot w.wR s.aR + dot w.wO s.aO - dot w.wV s.v - c = combined (asg s) z s.cons := by
  obtain ⟨c, hc⟩ := flattenLoop_const z s.cons z _ w 0 h
  refine ⟨c, hc, ?_⟩
  have := flattenLoop_spec s z s.cons 1 ⟨List.replicate s.aL.length 0, List.replicate s.aL.length 0,
      List.replicate s.aL.length 0, List.replicate s.v.length 0, 0⟩ _
    ⟨by simp, by simp [hw.lenR], by simp [hw.lenO], by simp⟩
    (by rw [one_mul]; exact hc)
  obtain ⟨a, b, d⟩ := this
  refine ⟨⟨a.L, a.R, a.O, a.V⟩, b, ?_⟩
  simp only [weigh, dot_zeros] at d
  rw [d]
  ring

end Yacl.Bp.R1cs
