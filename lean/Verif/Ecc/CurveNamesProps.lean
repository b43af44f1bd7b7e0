import Verif.Ecc.CurveNames

/-!
# C123: curve names
-/

namespace Verif.Ecc.Names

/-! ## Specification -/

/-- `s` is a name or an alias of the curve, up to upper and lower case. -/
def Names (c : Meta) (s : Name) : Prop := lower s = lower c.name ∨ ∃ a ∈ c.aliases, lower s = lower a

instance (c : Meta) (s : Name) : Decidable (Names c s) := by unfold Names; infer_instance

/-- The first curve of the table with this name. -/
def first (t : List Meta) (s : Name) : Option Meta := t.find? (fun c => Names c s)

/-! ## Lemmas -/

theorem find_append {α : Type} (m : List (Name × α)) (n k : Name) (v : α) :
    find (m ++ [(n, v)]) k = match find m k with | some x => some x | none => if n = k then some v else none := by
  induction m with
  | nil => rfl
  | cons e m ih =>
    obtain ⟨a, b⟩ := e
    simp only [List.cons_append, find]
    by_cases h : a = k
    · simp [h]
    · simp [h, ih]

/-- A map that holds the first of a list of curves. -/
def Holds (m : List (Name × Meta)) (f : Name → Option Meta) : Prop := ∀ s, find m (lower s) = f s

theorem insert_holds {m m' : List (Name × Meta)} {f : Name → Option Meta} {nm : Name} {c : Meta} (h : Holds m f)
    (hi : insert m nm c = some m') :
    Holds m' (fun s => match f s with | some x => some x | none => if lower nm = lower s then some c else none) ∧
      (∀ x, f nm = some x → x.equiv c = true) := by
  unfold insert at hi
  cases hf : find m (lower nm) with
  | none =>
    rw [hf] at hi
    simp only [Option.some.injEq] at hi
    subst hi
    refine ⟨fun s => ?_, fun x hx => ?_⟩
    · rw [find_append, h s]
      cases hs : f s <;> simp [hs]
    · rw [← h nm, hf] at hx; cases hx
  | some old =>
    rw [hf] at hi
    simp only at hi
    split at hi
    · rename_i he
      simp only [Option.some.injEq] at hi
      subst hi
      refine ⟨fun s => ?_, fun x hx => ?_⟩
      · rw [h s]
        beta_reduce
        cases hs : f s with
        | some x => rfl
        | none =>
          simp only
          rw [if_neg]
          intro e
          rw [← h s, ← e, hf] at hs
          cases hs
      · rw [← h nm, hf] at hx
        cases hx
        exact he
    · cases hi

theorem insert_some {m : List (Name × Meta)} {f : Name → Option Meta} {nm : Name} {c : Meta} (h : Holds m f)
    (he : ∀ x, f nm = some x → x.equiv c = true) : ∃ m', insert m nm c = some m' := by
  unfold insert
  cases hf : find m (lower nm) with
  | none => exact ⟨_, rfl⟩
  | some old =>
    have := he old (by rw [← h nm]; exact hf)
    simp [this]

theorem insertAll_holds {c : Meta} (as : List Name) : ∀ {m m' : List (Name × Meta)} {f : Name → Option Meta},
    Holds m f → insertAll m c as = some m' →
    Holds m' (fun s => match f s with | some x => some x | none => if ∃ a ∈ as, lower s = lower a then some c else none) ∧
      (∀ a ∈ as, ∀ x, f a = some x → x.equiv c = true) := by
  induction as with
  | nil =>
    intro m m' f h hi
    simp only [insertAll, Option.some.injEq] at hi
    subst hi
    refine ⟨fun s => ?_, fun a ha => by simp at ha⟩
    rw [h s]
    beta_reduce
    cases f s <;> simp
  | cons a as ih =>
    intro m m' f h hi
    simp only [insertAll] at hi
    cases h1 : insert m a c with
    | none => rw [h1] at hi; cases hi
    | some m1 =>
      rw [h1] at hi
      obtain ⟨h2, h3⟩ := insert_holds h h1
      obtain ⟨h4, h5⟩ := ih h2 hi
      refine ⟨fun s => ?_, fun b hb x hx => ?_⟩
      · rw [h4 s]
        beta_reduce
        cases hs : f s with
        | some x => simp
        | none =>
          simp only
          by_cases e : lower a = lower s
          · simp only [if_pos e]
            rw [if_pos ⟨a, List.mem_cons_self, e.symm⟩]
          · rw [if_neg e]
            simp only
            congr 1
            simp only [List.mem_cons, exists_eq_or_imp, eq_iff_iff]
            have : ¬ lower s = lower a := fun q => e q.symm
            simp [this]
      · rcases List.mem_cons.mp hb with rfl | hb
        · exact h3 x hx
        · refine h5 b hb x ?_
          simp [hx]

theorem insertAll_some {c : Meta} (hc : c.equiv c = true) (as : List Name) :
    ∀ {m : List (Name × Meta)} {f : Name → Option Meta}, Holds m f →
    (∀ a ∈ as, ∀ x, f a = some x → x.equiv c = true) → ∃ m', insertAll m c as = some m' := by
  induction as with
  | nil => intro m f _ _; exact ⟨m, rfl⟩
  | cons a as ih =>
    intro m f h he
    obtain ⟨m1, h1⟩ := insert_some h (he a List.mem_cons_self)
    obtain ⟨h2, _⟩ := insert_holds h h1
    obtain ⟨m2, h3⟩ := ih h2 (by
      intro b hb x hx
      beta_reduce at hx
      cases hs : f b with
      | some y =>
        rw [hs] at hx
        simp only [Option.some.injEq] at hx
        subst hx
        exact he b (List.mem_cons_of_mem _ hb) y hs
      | none =>
        rw [hs] at hx
        simp only at hx
        split at hx
        · cases hx; exact hc
        · cases hx)
    exact ⟨m2, by simp [insertAll, h1, h3]⟩

theorem equiv_refl (c : Meta) : c.equiv c = true := by simp [Meta.equiv]

/-- What `f` says, or else the first curve of `t`. -/
def orFirst (f : Name → Option Meta) (t : List Meta) (s : Name) : Option Meta :=
  match f s with
  | some x => some x
  | none => first t s

theorem orFirst_cons (f : Name → Option Meta) (c : Meta) (cs : List Meta) (s : Name) :
    orFirst f (c :: cs) s =
      orFirst (fun s => match f s with | some x => some x | none => if Names c s then some c else none) cs s := by
  unfold orFirst
  beta_reduce
  cases hf : f s with
  | some x => simp only
  | none =>
    simp only [first, List.find?_cons]
    by_cases h : Names c s <;> simp [h]

theorem curve_holds {m m1 m2 : List (Name × Meta)} {f : Name → Option Meta} {c : Meta} (h : Holds m f)
    (h1 : insert m c.name c = some m1) (h2 : insertAll m1 c c.aliases = some m2) :
    Holds m2 (fun s => match f s with | some x => some x | none => if Names c s then some c else none) ∧
      (∀ s, Names c s → ∀ x, f s = some x → x.equiv c = true) := by
  obtain ⟨h3, h4⟩ := insert_holds h h1
  obtain ⟨h5, h6⟩ := insertAll_holds _ h3 h2
  have hlow : ∀ a b, lower a = lower b → f a = f b := fun a b e => by rw [← h a, ← h b, e]
  refine ⟨fun s => ?_, fun s hs x hx => ?_⟩
  · rw [h5 s]
    beta_reduce
    cases hs : f s with
    | some x => simp
    | none =>
      simp only
      by_cases e : lower c.name = lower s
      · simp only [if_pos e]
        exact (if_pos (show Names c s from Or.inl e.symm)).symm
      · rw [if_neg e]
        simp only
        congr 1
        simp only [Names, eq_iff_iff]
        have : ¬ lower s = lower c.name := fun q => e q.symm
        simp [this]
  · rcases hs with e | ⟨a, ha, e⟩
    · exact h4 x (by rw [← hlow s _ e]; exact hx)
    · refine h6 a ha x ?_
      have : f a = some x := by rw [← hlow s _ e]; exact hx
      simp [this]

theorem buildFrom_holds (t : List Meta) : ∀ {m m' : List (Name × Meta)} {f : Name → Option Meta},
    Holds m f → buildFrom m t = some m' → Holds m' (orFirst f t) := by
  induction t with
  | nil =>
    intro m m' f h hb
    simp only [buildFrom, Option.some.injEq] at hb
    subst hb
    intro s
    rw [h s]
    unfold orFirst first
    cases f s <;> simp
  | cons c cs ih =>
    intro m m' f h hb
    simp only [buildFrom] at hb
    cases h1 : insert m c.name c with
    | none => rw [h1] at hb; cases hb
    | some m1 =>
      rw [h1] at hb
      simp only at hb
      cases h2 : insertAll m1 c c.aliases with
      | none => rw [h2] at hb; cases hb
      | some m2 =>
        rw [h2] at hb
        obtain ⟨h3, _⟩ := curve_holds h h1 h2
        intro s
        rw [ih h3 hb s, orFirst_cons]

theorem buildFrom_equiv (t : List Meta) : ∀ {m m' : List (Name × Meta)} {f : Name → Option Meta},
    Holds m f → buildFrom m t = some m' → ∀ c ∈ t, ∀ s, Names c s → ∀ x, orFirst f t s = some x → x.equiv c = true := by
  induction t with
  | nil => intro m m' f _ _ c hc; simp at hc
  | cons c cs ih =>
    intro m m' f h hb d hd s hs x hx
    simp only [buildFrom] at hb
    cases h1 : insert m c.name c with
    | none => rw [h1] at hb; cases hb
    | some m1 =>
      rw [h1] at hb
      simp only at hb
      cases h2 : insertAll m1 c c.aliases with
      | none => rw [h2] at hb; cases hb
      | some m2 =>
        rw [h2] at hb
        obtain ⟨h3, h4⟩ := curve_holds h h1 h2
        rcases List.mem_cons.mp hd with rfl | hd
        · unfold orFirst at hx
          cases hf : f s with
          | some y =>
            rw [hf] at hx
            simp only [Option.some.injEq] at hx
            subst hx
            exact h4 s hs y hf
          | none =>
            rw [hf] at hx
            simp only [first, List.find?_cons, hs, decide_true, Option.some.injEq] at hx
            subst hx
            exact equiv_refl _
        · rw [orFirst_cons] at hx
          exact ih h3 hb d hd s hs x hx

theorem names_name (c : Meta) : Names c c.name := Or.inl rfl

theorem names_alias {c : Meta} {a : Name} (ha : a ∈ c.aliases) : Names c a := Or.inr ⟨a, ha, rfl⟩

theorem buildFrom_some (t : List Meta) : ∀ {m : List (Name × Meta)} {f : Name → Option Meta}, Holds m f →
    (∀ c ∈ t, ∀ s, Names c s → ∀ x, orFirst f t s = some x → x.equiv c = true) → ∃ m', buildFrom m t = some m' := by
  induction t with
  | nil => intro m f _ _; exact ⟨m, rfl⟩
  | cons c cs ih =>
    intro m f h he
    have hself : ∀ s, Names c s → ∀ x, f s = some x → x.equiv c = true := fun s hs x hx =>
      he c List.mem_cons_self s hs x (by unfold orFirst; rw [hx])
    obtain ⟨m1, h1⟩ := insert_some h (fun x hx => hself _ (names_name c) x hx)
    obtain ⟨h2, _⟩ := insert_holds h h1
    obtain ⟨m2, h3⟩ := insertAll_some (equiv_refl c) c.aliases h2 (by
      intro a ha x hx
      beta_reduce at hx
      cases hf : f a with
      | some y =>
        rw [hf] at hx
        simp only [Option.some.injEq] at hx
        subst hx
        exact hself a (names_alias ha) y hf
      | none =>
        rw [hf] at hx
        simp only at hx
        split at hx
        · cases hx; exact equiv_refl c
        · cases hx)
    obtain ⟨h4, _⟩ := curve_holds h h1 h3
    obtain ⟨m3, h5⟩ := ih h4 (by
      intro d hd s hs x hx
      exact he d (List.mem_cons_of_mem _ hd) s hs x (by rw [orFirst_cons]; exact hx))
    exact ⟨m3, by simp [buildFrom, h1, h3, h5]⟩

theorem holds_nil : Holds [] (fun _ => none) := fun _ => rfl

/-! ## Theorems -/

/-- **C123.** For every table: looking a name up gives the first curve of the table
that has the name among its name and aliases, up to case, and throws if there is
none. -/
theorem C123_lookup (t : List Meta) (m : List (Name × Meta)) (h : buildMap t = some m) (s : Name) :
    get m s = t.find? (fun c => decide (Names c s)) := buildFrom_holds t holds_nil h s

/-- **C123.** For every table: building the map throws exactly if some curve shares
a name, up to case, with an earlier one of another form, field or security level. -/
theorem C123_build (t : List Meta) :
    (∃ m, buildMap t = some m) ↔
      ∀ c ∈ t, ∀ s, Names c s → ∀ x, t.find? (fun c => decide (Names c s)) = some x →
        x.form = c.form ∧ x.field = c.field ∧ x.bits = c.bits := by
  have hiff : ∀ x c : Meta, x.equiv c = true ↔ x.form = c.form ∧ x.field = c.field ∧ x.bits = c.bits := by
    intro x c; simp [Meta.equiv, and_assoc]
  constructor
  · rintro ⟨m, h⟩ c hc s hs x hx
    exact (hiff x c).mp (buildFrom_equiv t holds_nil h c hc s hs x hx)
  · intro he
    exact buildFrom_some t holds_nil (fun c hc s hs x hx => (hiff x c).mpr (he c hc s hs x hx))

/-- **C123.** Names are case insensitive. -/
theorem C123_case (m : List (Name × Meta)) (s s' : Name) (h : lower s = lower s') :
    get m s = get m s' ∧ (∀ l, checker m l s = checker m l s') ∧ (∀ l, creator m l s = creator m l s') := by
  have : get m s = get m s' := by unfold get; rw [h]
  exact ⟨this, fun l => by unfold checker; rw [this], fun l => by unfold creator; rw [this]⟩

/-- **C123.** Every library creates a group for every curve it says it supports,
and, CUDA aside, throws for every other. -/
theorem C123_create (l : Library) (c : Meta) :
    (isSupported l c = true → ∃ g, create l c = some g) ∧
    (l ≠ .cuda → isSupported l c = false → create l c = none) := by
  cases l
  case openssl =>
    simp only [isSupported, create]
    cases find name2Nid c.lowerName <;> simp
  case mcl =>
    simp only [isSupported, create]
    have hall : ∀ k v, find mclTable k = some v → ([n! "MCL_SECP160K1", n! "MCL_SECP192K1", n! "MCL_SECP224K1",
        n! "MCL_SECP256K1", n! "MCL_SECP384R1", n! "MCL_NIST_P192", n! "MCL_NIST_P224", n! "MCL_NIST_P256"].contains v) = true := by
      intro k v
      simp only [mclTable, find]
      repeat' split
      all_goals first | (intro h; cases h; decide) | (intro h; cases h)
    cases hf : find mclTable c.lowerName with
    | none => simp
    | some v => simp only [hall _ _ hf, if_true]; simp
  case libsodium =>
    simp only [isSupported, create]
    refine ⟨fun h => ?_, fun _ h => by simp only [h]; rfl⟩
    rw [if_pos h]
    simp only [sodiumKeys, List.contains_cons, List.contains_nil, Bool.or_false, Bool.or_eq_true, beq_iff_eq] at h
    rcases h with h | h | h <;> rw [h] <;> exact ⟨_, rfl⟩
  case lib25519 =>
    simp only [isSupported, create]
    refine ⟨fun h => ?_, fun _ h => by simp only [h]; rfl⟩
    rw [if_pos h]
    simp only [lib25519Keys, List.contains_cons, List.contains_nil, Bool.or_false, beq_iff_eq] at h
    rw [h]; exact ⟨_, rfl⟩
  case fourq =>
    simp only [isSupported, create, decide_eq_true_iff, decide_eq_false_iff_not]
    exact ⟨fun h => by rw [if_pos h]; exact ⟨_, rfl⟩, fun _ h => by rw [if_neg h]⟩
  case toy =>
    simp only [isSupported, create]
    refine ⟨fun h => ?_, fun _ h => by simp only [h]; rfl⟩
    rw [if_pos h]
    split <;> exact ⟨_, rfl⟩
  case cuda => exact ⟨fun _ => ⟨_, rfl⟩, fun h => absurd rfl h⟩

end Verif.Ecc.Names
