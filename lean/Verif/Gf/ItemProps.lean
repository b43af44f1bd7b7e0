import Verif.Gf.ItemModel
import Mathlib.Data.List.Basic
import Mathlib.Data.List.Range
import Mathlib.Tactic.SplitIfs
/-! Property C124: the container `Item` and element-wise calls. -/
namespace Verif.Item

variable {T : Type}

/-! ### Specification -/

/-- The `i`-th element of a span in memory. -/
def At (m : Mem T) (s : Span) (i : Nat) (v : T) : Prop := m.cell s.id (s.off + i) = some v

/-- A span that can be read: its array exists and is long enough. -/
def Live (m : Mem T) (s : Span) : Prop := s.id < m.next ∧ ∀ i < s.len, ∃ v, At m s i v

/-- A memory cell is inside a span. -/
def Inside (s : Span) (id k : Nat) : Prop := id = s.id ∧ s.off ≤ k ∧ k < s.off + s.len

/-- Two spans have no cell in common. -/
def Apart (s t : Span) : Prop := ∀ id k, ¬(Inside s id k ∧ Inside t id k)

/-- A possible run of the parallel loop over `n` elements: every index exactly once, in whatever order. -/
def Sched.Covers (sch : Sched) (n : Nat) : Prop := sch.order.Perm (List.range n)

/-! ### Lemmas -/

theorem failed_mono {R : Type} (sch : Sched) (f : Nat → Option R) (o : List Nat) (st : LoopSt R) (h : st.failed ≠ []) :
    (o.foldl (loopStep sch f) st).failed ≠ [] := by
  induction o generalizing st with
  | nil => exact h
  | cons i o ih =>
    rw [List.foldl_cons]
    apply ih
    unfold loopStep
    split
    · exact h
    · split
      · exact h
      · simp

theorem loop_throws {R : Type} (sch : Sched) (f : Nat → Option R) (o : List Nat) (st : LoopSt R) (i : Nat) (hi : i ∈ o)
    (hf : f i = none) : (o.foldl (loopStep sch f) st).failed ≠ [] := by
  induction o generalizing st with
  | nil => simp at hi
  | cons j o ih =>
    rw [List.foldl_cons]
    rcases List.mem_cons.mp hi with h | h
    · subst h
      apply failed_mono
      unfold loopStep
      split
      · rename_i hm; intro h0; rw [h0] at hm; simp at hm
      · rw [hf]; simp
    · exact ih _ h

theorem loop_ok {R : Type} (sch : Sched) (f : Nat → Option R) (o : List Nat) (st : LoopSt R) (h0 : st.failed = [])
    (hf : ∀ i ∈ o, ∃ v, f i = some v) :
    (o.foldl (loopStep sch f) st).failed = [] ∧
    ∀ j, (o.foldl (loopStep sch f) st).out j = if j ∈ o then f j else st.out j := by
  induction o generalizing st with
  | nil => exact ⟨h0, fun j => by simp⟩
  | cons i o ih =>
    obtain ⟨v, hv⟩ := hf i (by simp)
    have hs : loopStep sch f st i = ⟨fun j => if j = i then some v else st.out j, st.failed⟩ := by
      unfold loopStep
      rw [h0, hv]
      simp
    rw [List.foldl_cons, hs]
    obtain ⟨h1, h2⟩ := ih ⟨fun j => if j = i then some v else st.out j, st.failed⟩ h0 (fun j hj => hf j (by simp [hj]))
    refine ⟨h1, fun j => ?_⟩
    rw [h2 j]
    by_cases hji : j = i
    · subst hji; simp [hv]
    · by_cases hjo : j ∈ o <;> simp [hji, hjo]

/-- The parallel loop computes what the plain loop over the indices computes. -/
theorem runLoop_eq {R : Type} (sch : Sched) (f : Nat → Option R) (n : Nat) (hc : sch.Covers n) :
    runLoop sch f n = match (List.range n).mapM f with | some l => .ok l | none => .throws := by
  unfold runLoop
  extract_lets st
  by_cases hall : ∀ i < n, ∃ v, f i = some v
  · obtain ⟨h1, h2⟩ := loop_ok sch f sch.order ⟨fun _ => none, []⟩ rfl
      (fun i hi => hall i (by simpa using (hc.mem_iff).mp hi))
    have hm : (List.range n).mapM f = some ((List.range n).filterMap st.out) := by
      have : ∀ l : List Nat, (∀ i ∈ l, i < n) → l.mapM f = some (l.filterMap st.out) := by
        intro l
        induction l with
        | nil => intro _; rfl
        | cons a l ih =>
          intro hl
          obtain ⟨v, hv⟩ := hall a (hl a (by simp))
          have ho : st.out a = some v := by
            show (sch.order.foldl (loopStep sch f) ⟨fun _ => none, []⟩).out a = _
            rw [h2 a, if_pos ((hc.mem_iff).mpr (by simpa using hl a (by simp)))]
            exact hv
          rw [List.mapM_cons, hv, List.filterMap_cons, ho]
          simp [ih (fun i hi => hl i (by simp [hi]))]
      exact this _ (fun i hi => by simpa using hi)
    rw [if_pos h1, hm]
  · push Not at hall
    obtain ⟨i, hi, hn⟩ := hall
    have hfi : f i = none := by
      cases h : f i with
      | none => rfl
      | some v => exact absurd h (hn v)
    have hmem : i ∈ List.range n := by simpa using hi
    rw [if_neg (loop_throws sch f sch.order _ i ((hc.mem_iff).mpr hmem) hfi)]
    have : (List.range n).mapM f = none := by
      revert hmem
      generalize List.range n = l
      induction l with
      | nil => simp
      | cons a l ih =>
        intro hm
        rw [List.mapM_cons]
        rcases List.mem_cons.mp hm with h | h
        · subst h; simp [hfi]
        · cases f a with
          | none => rfl
          | some v => simp [ih h]
    rw [this]

theorem read_mapM {R : Type} (m : Mem T) (s : Span) (h : Live m s) (f : T → Option R) :
    (List.range s.len).mapM (fun i => (m.cell s.id (s.off + i)).bind f) = (m.read s).mapM f := by
  unfold Mem.read
  have : ∀ l : List Nat, (∀ i ∈ l, i < s.len) →
      l.mapM (fun i => (m.cell s.id (s.off + i)).bind f) = (l.filterMap (fun k => m.cell s.id (s.off + k))).mapM f := by
    intro l
    induction l with
    | nil => intro _; rfl
    | cons a l ih =>
      intro hl
      obtain ⟨v, hv⟩ := h.2 a (hl a (by simp))
      rw [List.mapM_cons, List.filterMap_cons, show m.cell s.id (s.off + a) = some v from hv]
      simp only [Option.bind_some, List.mapM_cons]
      rw [ih (fun i hi => hl i (by simp [hi]))]
  exact this _ (fun i hi => by simpa using hi)

theorem read_length (m : Mem T) (s : Span) (h : Live m s) : (m.read s).length = s.len := by
  unfold Mem.read
  have : ∀ l : List Nat, (∀ i ∈ l, i < s.len) → (l.filterMap (fun k => m.cell s.id (s.off + k))).length = l.length := by
    intro l
    induction l with
    | nil => intro _; rfl
    | cons a l ih =>
      intro hl
      obtain ⟨v, hv⟩ := h.2 a (hl a (by simp))
      rw [List.filterMap_cons, show m.cell s.id (s.off + a) = some v from hv]
      simp [ih (fun i hi => hl i (by simp [hi]))]
  rw [this _ (fun i hi => by simpa using hi)]; simp

theorem mapM_length {α β : Type} (f : α → Option β) (l : List α) (r : List β) (h : l.mapM f = some r) : r.length = l.length := by
  induction l generalizing r with
  | nil => simp at h; simp [h]
  | cons a l ih =>
    rw [List.mapM_cons] at h
    cases hf : f a with
    | none => simp [hf] at h
    | some b =>
      cases hl : l.mapM f with
      | none => simp [hf, hl] at h
      | some r' =>
        simp [hf, hl] at h
        subst h
        simp [ih r' hl]

theorem alloc_read (m : Mem T) (l : List T) : (m.alloc l).1.read ⟨m.next, 0, l.length⟩ = l := by
  unfold Mem.read Mem.alloc
  simp only [if_true, Nat.zero_add]
  apply List.ext_getElem?
  intro i
  have : (List.range l.length).filterMap (fun k => l[k]?) = l := by
    induction l using List.reverseRecOn with
    | nil => rfl
    | append_singleton l a ih =>
      rw [List.length_append, List.length_singleton, List.range_succ, List.filterMap_append]
      have h1 : (List.range l.length).filterMap (fun k => (l ++ [a])[k]?) = (List.range l.length).filterMap (fun k => l[k]?) := by
        apply List.filterMap_congr
        intro k hk
        rw [List.getElem?_append_left (by simpa using hk)]
      rw [h1, ih]
      simp
  rw [this]

/-! ### Calls that return a new item -/

/-- The new item: a vector of its own, in memory not used before, with the elements `l`; nothing else changed. -/
def FreshVector (m : Mem T) (l : List T) (m' : Mem T) (r : Item T) : Prop :=
  ∃ id, r = .array id 0 l.length false false ∧ m.next ≤ id ∧ id < m'.next ∧ m'.read ⟨id, 0, l.length⟩ = l ∧
    ∀ id' k, id' ≠ id → m'.cell id' k = m.cell id' k

theorem alloc_fresh (m : Mem T) (l : List T) :
    FreshVector m l (m.alloc l).1 (.array (m.alloc l).2 0 l.length false false) :=
  ⟨m.next, rfl, Nat.le_refl _, Nat.lt_succ_self _, alloc_read m l, fun _ _ h => if_neg h⟩

/-- **C124** Unary calls (`Neg`, `Inv`, `Pow`, `DeepCopy`) for every element function, schedule, memory and item: on a scalar
the element function is applied to it; on an array (owned, view or read-only view) the result is a new vector with the
function applied to each element in order, and no memory that existed before changes; if the function throws for some element
the call throws. Items of another type are refused. -/
theorem C124_unary (sch : Sched) (f : T → Option T) (m : Mem T) :
    (∀ v, callUnary sch f m (.scalar v) = match f v with | some w => .ok (m, .scalar w) | none => .throws) ∧
    (∀ a v ro, callUnary sch f m (.foreign a v ro) = .throws) ∧
    ∀ (s : Span) (view ro : Bool), Live m s → sch.Covers s.len →
      match (m.read s).mapM f with
      | some l => ∃ m' r, callUnary sch f m (.array s.id s.off s.len view ro) = .ok (m', r) ∧ l.length = s.len ∧ FreshVector m l m' r
      | none => callUnary sch f m (.array s.id s.off s.len view ro) = .throws := by
  refine ⟨fun v => ?_, fun a v ro => ?_, fun s view ro hl hc => ?_⟩
  · cases h : f v <;> simp [callUnary, Item.isArray, asScalar, Res.bind, h]
  · cases a <;> rfl
  · have h := runLoop_eq sch (fun i => (m.cell s.id (s.off + i)).bind f) s.len hc
    rw [read_mapM m s hl f] at h
    have e : callUnary sch f m (.array s.id s.off s.len view ro) =
        (runLoop sch (fun i => (m.cell s.id (s.off + i)).bind f) s.len).bind fun l =>
          .ok ((m.alloc l).1, .array (m.alloc l).2 0 l.length false false) := rfl
    rw [e, h]
    cases hm : (m.read s).mapM f with
    | none => rfl
    | some l =>
      refine ⟨_, _, rfl, ?_, alloc_fresh m l⟩
      rw [mapM_length f _ l hm, read_length m s hl]

/-- **C124** Predicates (`IsIdentityZero`, `IsIdentityOne`, `IsInField`): one boolean for a scalar, one per element, in order,
for an array, whatever the schedule. -/
theorem C124_predicate (sch : Sched) (f : T → Bool) (m : Mem T) :
    (∀ v, callBool sch f m (.scalar v) = .ok (.inl (f v))) ∧
    (∀ a v ro, callBool sch f m (.foreign a v ro) = .throws) ∧
    ∀ (s : Span) (view ro : Bool), Live m s → sch.Covers s.len →
      callBool sch f m (.array s.id s.off s.len view ro) = .ok (.inr ((m.read s).map f)) := by
  refine ⟨fun v => rfl, fun a v ro => by cases a <;> rfl, fun s view ro hl hc => ?_⟩
  have h := runLoop_eq sch (fun i => (m.cell s.id (s.off + i)).bind (fun x => some (f x))) s.len hc
  rw [read_mapM m s hl (fun x => some (f x))] at h
  have hm : (m.read s).mapM (fun x => some (f x)) = some ((m.read s).map f) := by
    induction m.read s with
    | nil => rfl
    | cons a l ih => rw [List.mapM_cons, ih]; rfl
  rw [hm] at h
  have e : callBool sch f m (.array s.id s.off s.len view ro) =
      (runLoop sch (fun i => (m.cell s.id (s.off + i)).map f) s.len).bind fun l => .ok (.inr l) := rfl
  have e2 : (fun i => (m.cell s.id (s.off + i)).map f) = fun i => (m.cell s.id (s.off + i)).bind (fun x => some (f x)) := by
    funext i; cases m.cell s.id (s.off + i) <;> rfl
  rw [e, e2, h]
  rfl

/-- The function applied to pairs of elements. -/
def pairs (f : T → T → Option T) (xs ys : List T) : Option (List T) := (xs.zip ys).mapM fun p => f p.1 p.2

theorem read2_mapM (m : Mem T) (s t : Span) (hs : Live m s) (ht : Live m t) (hlen : s.len = t.len) (f : T → T → Option T) :
    (List.range s.len).mapM (fun i => (m.cell s.id (s.off + i)).bind fun a => (m.cell t.id (t.off + i)).bind fun b => f a b) =
      pairs f (m.read s) (m.read t) := by
  unfold pairs Mem.read
  rw [← hlen]
  have : ∀ l : List Nat, (∀ i ∈ l, i < s.len) →
      l.mapM (fun i => (m.cell s.id (s.off + i)).bind fun a => (m.cell t.id (t.off + i)).bind fun b => f a b) =
      ((l.filterMap (fun k => m.cell s.id (s.off + k))).zip (l.filterMap (fun k => m.cell t.id (t.off + k)))).mapM
        fun p => f p.1 p.2 := by
    intro l
    induction l with
    | nil => intro _; rfl
    | cons a l ih =>
      intro hl
      obtain ⟨v, hv⟩ := hs.2 a (hl a (by simp))
      obtain ⟨w, hw⟩ := ht.2 a (hlen ▸ hl a (by simp))
      rw [List.mapM_cons, List.filterMap_cons, List.filterMap_cons, show m.cell s.id (s.off + a) = some v from hv,
        show m.cell t.id (t.off + a) = some w from hw]
      simp only [Option.bind_some, List.zip_cons_cons, List.mapM_cons]
      rw [ih (fun i hi => hl i (by simp [hi]))]
  exact this _ (fun i hi => by simpa using hi)

/-- **C124** Binary calls (`Add`, `Sub`, `Mul`, `Div`): two scalars give a scalar; two arrays of one length give a new vector
with the function applied to the pairs of elements in order, whatever the schedule and however the two arrays overlap; arrays
of different lengths, a scalar with an array, and items of another type are refused. No memory that existed changes. -/
theorem C124_binary (sch : Sched) (f : T → T → Option T) (m : Mem T) :
    (∀ a b, callBinary sch f m (.scalar a) (.scalar b) = match f a b with | some c => .ok (m, .scalar c) | none => .throws) ∧
    (∀ x a v ro, callBinary sch f m (.foreign a v ro) x = .throws ∧ callBinary sch f m x (.foreign a v ro) = .throws) ∧
    (∀ a id off len v ro, callBinary sch f m (.scalar a) (.array id off len v ro) = .throws ∧
      callBinary sch f m (.array id off len v ro) (.scalar a) = .throws) ∧
    (∀ (s t : Span) (v ro v' ro' : Bool), s.len ≠ t.len →
      callBinary sch f m (.array s.id s.off s.len v ro) (.array t.id t.off t.len v' ro') = .throws) ∧
    ∀ (s t : Span) (v ro v' ro' : Bool), s.len = t.len → Live m s → Live m t → sch.Covers s.len →
      match pairs f (m.read s) (m.read t) with
      | some l => ∃ m' r, callBinary sch f m (.array s.id s.off s.len v ro) (.array t.id t.off t.len v' ro') = .ok (m', r) ∧
          l.length = s.len ∧ FreshVector m l m' r
      | none => callBinary sch f m (.array s.id s.off s.len v ro) (.array t.id t.off t.len v' ro') = .throws := by
  refine ⟨fun a b => ?_, fun x a v ro => ?_, fun a id off len v ro => ⟨rfl, rfl⟩, fun s t v ro v' ro' h => ?_,
    fun s t v ro v' ro' h hs ht hc => ?_⟩
  · cases h : f a b <;> simp [callBinary, Item.isArray, asScalar, Res.bind, h]
  · constructor
    · cases a <;> rcases x with _ | _ | ⟨_ | _, _, _⟩ <;> rfl
    · cases a <;> rcases x with _ | _ | ⟨_ | _, _, _⟩ <;> rfl
  · simp [callBinary, Item.isArray, asConstSpan, Res.bind, h]
  · have hr := runLoop_eq sch
      (fun i => (m.cell s.id (s.off + i)).bind fun a => (m.cell t.id (t.off + i)).bind fun b => f a b) s.len hc
    rw [read2_mapM m s t hs ht h f] at hr
    have e : callBinary sch f m (.array s.id s.off s.len v ro) (.array t.id t.off t.len v' ro') =
        if s.len = t.len then
        (runLoop sch (fun i => (m.cell s.id (s.off + i)).bind fun a => (m.cell t.id (t.off + i)).bind fun b => f a b) s.len).bind
          fun l => .ok ((m.alloc l).1, .array (m.alloc l).2 0 l.length false false) else .throws := rfl
    rw [e, if_pos h, hr]
    cases hm : pairs f (m.read s) (m.read t) with
    | none => rfl
    | some l =>
      refine ⟨_, _, rfl, ?_, alloc_fresh m l⟩
      unfold pairs at hm
      rw [mapM_length _ _ l hm, List.length_zip, read_length m s hs, read_length m t ht, h, Nat.min_self]

/-! ### In-place calls -/

/-- State of the in-place loop after the indices `done`. -/
structure InpInv (m0 : Mem T) (xs : Span) (g : Nat → Option T) (done : List Nat) (st : InpSt T) : Prop where
  rest : ∀ a b, (∀ i ∈ done, ¬(a = xs.id ∧ b = xs.off + i)) → st.mem.cell a b = m0.cell a b
  each : ∀ i ∈ done, st.mem.cell xs.id (xs.off + i) = m0.cell xs.id (xs.off + i) ∨
    ∃ v, g i = some v ∧ st.mem.cell xs.id (xs.off + i) = some v
  good : st.failed = [] → ∀ i ∈ done, ∃ v, g i = some v ∧ st.mem.cell xs.id (xs.off + i) = some v
  bad : st.failed ≠ [] → ∃ i ∈ done, g i = none
  next : st.mem.next = m0.next

/-- The new value of element `i` is computed from cells that no other element writes. -/
def Local (xs : Span) (g : Mem T → Nat → Option T) (m0 : Mem T) (n : Nat) : Prop :=
  ∀ i < n, ∀ m : Mem T, (∀ a b, (∀ j < n, j ≠ i → ¬(a = xs.id ∧ b = xs.off + j)) → m.cell a b = m0.cell a b) → g m i = g m0 i

theorem inp_inv (sch : Sched) (xs : Span) (g : Mem T → Nat → Option T) (m0 : Mem T) (n : Nat) (hloc : Local xs g m0 n)
    (o done : List Nat) (st : InpSt T) (hnd : o.Nodup) (hdis : ∀ i ∈ o, i ∉ done) (hlt : ∀ i ∈ o, i < n)
    (hltd : ∀ i ∈ done, i < n) (inv : InpInv m0 xs (g m0) done st) :
    InpInv m0 xs (g m0) (o.reverse ++ done) (o.foldl (inpStep sch xs g) st) := by
  induction o generalizing done st with
  | nil => simpa using inv
  | cons i o ih =>
    rw [List.foldl_cons, List.reverse_cons, List.append_assoc]
    have hid : i ∉ done := hdis i (by simp)
    have hin : i < n := hlt i (by simp)
    have hnd' := List.nodup_cons.mp hnd
    apply ih (i :: done) _ hnd'.2
    · intro j hj hmem
      rcases List.mem_cons.mp hmem with h | h
      · subst h; exact hnd'.1 hj
      · exact hdis j (by simp [hj]) h
    · intro j hj; exact hlt j (by simp [hj])
    · intro j hj
      rcases List.mem_cons.mp hj with h | h
      · subst h; exact hin
      · exact hltd j h
    · have hg : g st.mem i = g m0 i := by
        apply hloc i hin
        intro a b hab
        apply inv.rest
        intro j hj
        exact hab j (hltd j hj) (fun h => hid (h ▸ hj))
      have hcell : st.mem.cell xs.id (xs.off + i) = m0.cell xs.id (xs.off + i) :=
        inv.rest _ _ (fun j hj h => hid (by have : i = j := by omega
                                            rw [this]; exact hj))
      unfold inpStep
      split
      · rename_i hm
        have hne : st.failed ≠ [] := by intro h0; rw [h0] at hm; simp at hm
        exact
          { rest := fun a b h => inv.rest a b (fun j hj => h j (by simp [hj]))
            each := fun j hj => by
              rcases List.mem_cons.mp hj with h | h
              · subst h; exact Or.inl hcell
              · exact inv.each j h
            good := fun h => absurd h hne
            bad := fun h => by obtain ⟨j, hj, e⟩ := inv.bad h; exact ⟨j, by simp [hj], e⟩
            next := inv.next }
      · rw [hg]
        cases hv : g m0 i with
        | none =>
          exact
            { rest := fun a b h => inv.rest a b (fun j hj => h j (by simp [hj]))
              each := fun j hj => by
                rcases List.mem_cons.mp hj with h | h
                · subst h; exact Or.inl hcell
                · exact inv.each j h
              good := fun h => by simp at h
              bad := fun _ => ⟨i, by simp, hv⟩
              next := inv.next }
        | some v =>
          have hother : ∀ j ∈ done, (st.mem.write xs.id (xs.off + i) v).cell xs.id (xs.off + j) = st.mem.cell xs.id (xs.off + j) := by
            intro j hj
            refine if_neg (fun h => hid ?_)
            have : i = j := by omega
            rw [this]; exact hj
          have hself : (st.mem.write xs.id (xs.off + i) v).cell xs.id (xs.off + i) = some v := if_pos ⟨rfl, rfl⟩
          exact
            { rest := fun a b h => by
                show (if a = xs.id ∧ b = xs.off + i then some v else st.mem.cell a b) = _
                rw [if_neg (h i (by simp))]
                exact inv.rest a b (fun j hj => h j (by simp [hj]))
              each := fun j hj => by
                rcases List.mem_cons.mp hj with h | h
                · subst h; exact Or.inr ⟨v, hv, hself⟩
                · have := inv.each j h
                  rw [← hother j h] at this
                  exact this
              good := fun h0 j hj => by
                rcases List.mem_cons.mp hj with h | h
                · subst h; exact ⟨v, hv, hself⟩
                · obtain ⟨w, hw, hc⟩ := inv.good h0 j h
                  exact ⟨w, hw, by rw [hother j h]; exact hc⟩
              bad := fun h => by obtain ⟨j, hj, e⟩ := inv.bad h; exact ⟨j, by simp [hj], e⟩
              next := inv.next }

/-- What an in-place call on the span `xs` may do, if `g i` is the new value of element `i` (`none`: the element function
throws): nothing outside of the span changes; every element keeps its value or gets its new value; the call returns exactly if
no element throws, and then every element has its new value. -/
def Updates (m : Mem T) (xs : Span) (g : Nat → Option T) (r : Inp T) : Prop :=
  (∀ id k, ¬Inside xs id k → r.mem.cell id k = m.cell id k) ∧
  (∀ i < xs.len, r.mem.cell xs.id (xs.off + i) = m.cell xs.id (xs.off + i) ∨
    ∃ v, g i = some v ∧ At r.mem xs i v) ∧
  (r.res = .ok () ∨ r.res = .throws) ∧
  (r.res = .ok () ↔ ∀ i < xs.len, g i ≠ none) ∧
  (r.res = .ok () → ∀ i < xs.len, ∃ v, g i = some v ∧ At r.mem xs i v)

theorem runInp_updates (sch : Sched) (xs : Span) (g : Mem T → Nat → Option T) (m : Mem T) (hc : sch.Covers xs.len)
    (hloc : Local xs g m xs.len) (x : Item T) :
    Updates m xs (g m) ⟨if (runInp sch xs g m).2 then .throws else .ok (), (runInp sch xs g m).1, x⟩ := by
  have inv0 : InpInv m xs (g m) [] ⟨m, []⟩ :=
    { rest := fun _ _ _ => rfl
      each := fun i hi => by simp at hi
      good := fun _ i hi => by simp at hi
      bad := fun h => absurd rfl h
      next := rfl }
  have hlt : ∀ i ∈ sch.order, i < xs.len := fun i hi => by simpa using (hc.mem_iff).mp hi
  have inv := inp_inv sch xs g m xs.len hloc sch.order [] ⟨m, []⟩ (hc.nodup_iff.mpr List.nodup_range) (by simp) hlt (by simp) inv0
  have hmem : ∀ i, i ∈ sch.order.reverse ++ [] ↔ i < xs.len := by
    intro i
    simp [hc.mem_iff]
  unfold runInp
  extract_lets st
  have hst : sch.order.foldl (inpStep sch xs g) ⟨m, []⟩ = st := rfl
  rw [hst] at inv; clear hst
  by_cases hf : st.failed = []
  · simp only [hf, ne_eq, not_true_eq_false, decide_false, Bool.false_eq_true, if_false]
    refine ⟨fun id k h => inv.rest id k (fun i hi he => h ?_), fun i hi => inv.each i ((hmem i).mpr hi), Or.inl rfl,
      ⟨fun _ i hi => ?_, fun _ => rfl⟩, fun _ i hi => inv.good hf i ((hmem i).mpr hi)⟩
    · have := (hmem i).mp hi
      exact ⟨he.1, by omega, by omega⟩
    · obtain ⟨v, hv, _⟩ := inv.good hf i ((hmem i).mpr hi)
      rw [hv]; simp
  · obtain ⟨j, hj, hb⟩ := inv.bad hf
    simp only [hf, ne_eq, not_false_eq_true, decide_true, if_true]
    refine ⟨fun id k h => inv.rest id k (fun i hi he => h ?_), fun i hi => inv.each i ((hmem i).mpr hi), Or.inr rfl,
      ⟨fun h => by simp at h, fun h => absurd hb (h j ((hmem j).mp hj))⟩, fun h => by simp at h⟩
    have := (hmem i).mp hi
    exact ⟨he.1, by omega, by omega⟩

/-- **C124** In-place unary calls (`NegInplace`, `InvInplace`, `PowInplace`), for every schedule: on a writable array exactly its
own elements are replaced by the function's values (see `Updates`); a read-only array is refused and nothing changes; on a
scalar the value is replaced, or kept if the function throws. -/
theorem C124_unary_inplace (sch : Sched) (f : T → Option T) (m : Mem T) :
    (∀ v, callUnaryInplace sch f m (.scalar v) =
      match f v with | some w => ⟨.ok (), m, .scalar w⟩ | none => ⟨.throws, m, .scalar v⟩) ∧
    (∀ id off len v, callUnaryInplace sch f m (.array id off len v true) = ⟨.throws, m, .array id off len v true⟩) ∧
    ∀ (s : Span) (v : Bool), Live m s → sch.Covers s.len →
      (callUnaryInplace sch f m (.array s.id s.off s.len v false)).item = .array s.id s.off s.len v false ∧
      Updates m s (fun i => (m.cell s.id (s.off + i)).bind f) (callUnaryInplace sch f m (.array s.id s.off s.len v false)) := by
  refine ⟨fun v => ?_, fun id off len v => rfl, fun s v hl hc => ⟨rfl, ?_⟩⟩
  · cases h : f v <;> simp [callUnaryInplace, Item.isArray, asPointer, h]
  · refine runInp_updates sch s (fun m i => (m.cell s.id (s.off + i)).bind f) m hc ?_ _
    intro i hi m' h
    show (m'.cell s.id (s.off + i)).bind f = _
    rw [h s.id (s.off + i) (fun j hj hne he => hne (by omega))]

/-- **C124** In-place binary calls (`AddInplace`, …), for every schedule: if the second operand is the same span or has no cell
in common with the first, then exactly the elements of the first operand are replaced by the function's values (see `Updates`);
the second operand is unchanged unless it is the first. Read-only destinations, different lengths, a scalar with an array are
refused and nothing changes. The full statement would not need the condition on overlapping and would leave the destination
alone if the call throws: see `C124_overlap_violated` and `C124_half_done_violated`. -/
theorem C124_binary_inplace_partial (sch : Sched) (f : T → T → Option T) (m : Mem T) :
    (∀ a b, callBinaryInplace sch f m (.scalar a) (.scalar b) =
      match f a b with | some c => ⟨.ok (), m, .scalar c⟩ | none => ⟨.throws, m, .scalar a⟩) ∧
    (∀ id off len v y, y.isArray = true → callBinaryInplace sch f m (.array id off len v true) y = ⟨.throws, m, .array id off len v true⟩) ∧
    (∀ x y, x.isArray ≠ y.isArray → callBinaryInplace sch f m x y = ⟨.throws, m, x⟩) ∧
    (∀ (s t : Span) (v ro v' ro' : Bool), s.len ≠ t.len → callBinaryInplace sch f m (.array s.id s.off s.len v ro) (.array t.id t.off t.len v' ro') =
      ⟨.throws, m, .array s.id s.off s.len v ro⟩) ∧
    ∀ (s t : Span) (v v' ro' : Bool), s.len = t.len → Live m s → Live m t → sch.Covers s.len → (s = t ∨ Apart s t) →
      (callBinaryInplace sch f m (.array s.id s.off s.len v false) (.array t.id t.off t.len v' ro')).item =
        .array s.id s.off s.len v false ∧
      Updates m s (fun i => (m.cell s.id (s.off + i)).bind fun a => (m.cell t.id (t.off + i)).bind fun b => f a b)
        (callBinaryInplace sch f m (.array s.id s.off s.len v false) (.array t.id t.off t.len v' ro')) := by
  refine ⟨fun a b => ?_, fun id off len v y hy => ?_, fun x y h => ?_, fun s t v ro v' ro' h => ?_,
    fun s t v v' ro' h hs ht hc hst => ?_⟩
  · cases h : f a b <;> simp [callBinaryInplace, Item.isArray, asScalar, asPointer, h]
  · unfold callBinaryInplace
    rw [hy]
    simp [Item.isArray, asSpan]
  · unfold callBinaryInplace
    cases hx : x.isArray <;> cases hy : y.isArray <;> simp_all
  · unfold callBinaryInplace
    cases ro <;> simp [Item.isArray, asSpan, asConstSpan, h]
  · have e : callBinaryInplace sch f m (.array s.id s.off s.len v false) (.array t.id t.off t.len v' ro') =
        if s.len = t.len then
        ⟨if (runInp sch s (fun m i => (m.cell s.id (s.off + i)).bind fun a => (m.cell t.id (t.off + i)).bind fun b => f a b) m).2
          then .throws else .ok (),
          (runInp sch s (fun m i => (m.cell s.id (s.off + i)).bind fun a => (m.cell t.id (t.off + i)).bind fun b => f a b) m).1,
          .array s.id s.off s.len v false⟩
        else ⟨.throws, m, .array s.id s.off s.len v false⟩ := rfl
    rw [e, if_pos h]
    refine ⟨rfl, runInp_updates sch s
      (fun m i => (m.cell s.id (s.off + i)).bind fun a => (m.cell t.id (t.off + i)).bind fun b => f a b) m hc ?_ _⟩
    intro i hi m' hm'
    show ((m'.cell s.id (s.off + i)).bind fun a => (m'.cell t.id (t.off + i)).bind fun b => f a b) = _
    have h1 : m'.cell s.id (s.off + i) = m.cell s.id (s.off + i) := hm' _ _ (fun j hj hne he => hne (by omega))
    have h2 : m'.cell t.id (t.off + i) = m.cell t.id (t.off + i) := by
      rcases hst with hst | hst
      · rw [← hst]; exact h1
      · refine hm' _ _ (fun j hj hne he => hst t.id (t.off + i) ⟨⟨he.1, by omega, by omega⟩, rfl, by omega, by omega⟩)
    rw [h1, h2]

/-! ### Comparison -/

theorem flag_false (p : Nat → Bool) (o : List Nat) : o.foldl (flagStep p) false = false := by
  induction o with
  | nil => rfl
  | cons i o ih => rw [List.foldl_cons]; exact ih

theorem flag_all (p : Nat → Bool) (o : List Nat) : o.foldl (flagStep p) true = o.all p := by
  induction o with
  | nil => rfl
  | cons i o ih =>
    rw [List.foldl_cons, List.all_cons]
    by_cases h : p i = true
    · have : flagStep p true i = true := by simp [flagStep, h]
      rw [this, ih, h]; simp
    · have : flagStep p true i = false := by simp [flagStep, h]
      rw [this, flag_false]; simp [h]

/-- **C124** `Equal`: two scalars are compared; two arrays are equal exactly if they have one length and all pairs of elements are
equal, whatever the schedule; a scalar never equals an array (not even one with the same single element). -/
theorem C124_equal (order : List Nat) (eq : T → T → Bool) (m : Mem T) :
    (∀ a b, equalItems order eq m (.scalar a) (.scalar b) = .ok (eq a b)) ∧
    (∀ x y, x.isArray ≠ y.isArray → equalItems order eq m x y = .ok false) ∧
    ∀ (s t : Span) (v ro v' ro' : Bool), Live m s → Live m t → order.Perm (List.range s.len) →
      ∃ b, equalItems order eq m (.array s.id s.off s.len v ro) (.array t.id t.off t.len v' ro') = .ok b ∧
        (b = true ↔ s.len = t.len ∧ ∀ i < s.len, ∀ a c, At m s i a → At m t i c → eq a c = true) := by
  refine ⟨fun a b => rfl, fun x y h => ?_, fun s t v ro v' ro' hs ht hp => ?_⟩
  · unfold equalItems
    cases hx : x.isArray <;> cases hy : y.isArray <;> simp_all
  · by_cases hl : s.len = t.len
    · refine ⟨_, by simp [equalItems, Item.isArray, asConstSpan, Res.bind, hl]; rfl, ?_⟩
      rw [flag_all, List.all_eq_true]
      constructor
      · intro h
        refine ⟨hl, fun i hi a c ha hc => ?_⟩
        have := h i (hp.mem_iff.mpr (by simpa using hi))
        rw [show m.cell s.id (s.off + i) = some a from ha, show m.cell t.id (t.off + i) = some c from hc] at this
        exact this
      · rintro ⟨_, h⟩ i hi
        have hi' : i < s.len := by simpa using hp.mem_iff.mp hi
        obtain ⟨a, ha⟩ := hs.2 i hi'
        obtain ⟨c, hc⟩ := ht.2 i (hl ▸ hi')
        rw [show m.cell s.id (s.off + i) = some a from ha, show m.cell t.id (t.off + i) = some c from hc]
        exact h i hi' a c ha hc
    · refine ⟨false, by simp [equalItems, Item.isArray, asConstSpan, Res.bind, hl], ?_⟩
      simp [hl]

/-- **C124** `IsAll(e)`: true exactly if every element (a scalar being one element) equals `e`, whatever the schedule. -/
theorem C124_is_all [DecidableEq T] (order : List Nat) (m : Mem T) (e : T) :
    (∀ v, isAll order m (.scalar v) e = .ok (decide (v = e))) ∧
    ∀ (s : Span) (v ro : Bool), Live m s → order.Perm (List.range s.len) →
      isAll order m (.array s.id s.off s.len v ro) e = .ok ((m.read s).all (· == e)) := by
  refine ⟨fun v => rfl, fun s v ro hs hp => ?_⟩
  show Res.ok _ = _
  congr 1
  rw [flag_all, Bool.eq_iff_iff, List.all_eq_true, List.all_eq_true]
  unfold Mem.read
  constructor
  · intro h x hx
    obtain ⟨k, hk, hx⟩ := List.mem_filterMap.mp hx
    have := h k (hp.mem_iff.mpr hk)
    simp [hx] at this
    simpa using this
  · intro h i hi
    have hi' : i < s.len := by simpa using hp.mem_iff.mp hi
    obtain ⟨a, ha⟩ := hs.2 i hi'
    have := h a (List.mem_filterMap.mpr ⟨i, by simpa using hi', ha⟩)
    rw [show m.cell s.id (s.off + i) = some a from ha]
    simpa using this

/-! ### Slices and resizing -/

/-- **C124** `SubItem`: a scalar is refused, and so is a start beyond the end; otherwise the slice is a view of the elements from
`pos`, at most `len` of them and not beyond the end, of the same memory; it is read-only if the item or the call is. -/
theorem C124_sub_item (x : Item T) (pos len : Nat) (c : Bool) :
    (x.isArray = false → subItem x pos len c = .throws) ∧
    ∀ (s : Span) (v ro : Bool), x = .array s.id s.off s.len v ro →
      (s.len < pos → subItem x pos len c = .throws) ∧
      (pos ≤ s.len → ∃ t : Span, subItem x pos len c = .ok (.array t.id t.off t.len true (ro || c)) ∧
        t.len = min (s.len - pos) len ∧ (∀ m : Mem T, ∀ i < t.len, ∀ a, At m t i a ↔ At m s (pos + i) a) ∧
        ∀ m : Mem T, Live m s → Live m t) := by
  refine ⟨fun h => ?_, fun s v ro hx => ⟨fun h => ?_, fun h => ?_⟩⟩
  · cases x <;> first | rfl | simp [Item.isArray] at h
  · subst hx; simp [subItem, subspan, Res.bind, h]
  · subst hx
    refine ⟨⟨s.id, s.off + pos, min (s.len - pos) len⟩, ?_, rfl, fun m i hi a => ?_, fun m hm => ⟨hm.1, fun i hi => ?_⟩⟩
    · simp [subItem, subspan, Res.bind, Nat.not_lt.mpr h]
    · unfold At; simp only [Nat.add_assoc]
    · have hi' : i < min (s.len - pos) len := hi
      obtain ⟨a, ha⟩ := hm.2 (pos + i) (by omega)
      exact ⟨a, by unfold At at ha ⊢; simpa only [Nat.add_assoc] using ha⟩

/-- **C124** `IsReadOnly`: a scalar is not read-only; a slice is exactly if the item or the call is. -/
theorem C124_read_only (x : Item T) (v : T) (pos len : Nat) (c : Bool) :
    (Item.scalar v).isReadOnly = false ∧
    ∀ y, subItem x pos len c = .ok y → y.isReadOnly = (x.isReadOnly || c) ∧ y.isArray = true := by
  refine ⟨rfl, fun y hy => ?_⟩
  cases x with
  | scalar _ => cases hy
  | foreign _ _ _ => cases hy
  | array id off n v ro =>
    simp only [subItem, subspan] at hy
    split_ifs at hy
    · cases hy
    · cases hy; exact ⟨rfl, rfl⟩

theorem alloc_cell (m : Mem T) (l : List T) (k : Nat) : (m.alloc l).1.cell m.next k = l[k]? := if_pos rfl

theorem read_getElem? (m : Mem T) (s : Span) (h : Live m s) (i : Nat) (hi : i < s.len) :
    (m.read s)[i]? = m.cell s.id (s.off + i) := by
  unfold Mem.read
  have : ∀ n ≤ s.len, ∀ i < n, ((List.range n).filterMap (fun k => m.cell s.id (s.off + k)))[i]? = m.cell s.id (s.off + i) := by
    intro n
    induction n with
    | zero => intro _ i hi; omega
    | succ n ih =>
      intro hn i hi
      have hlen := read_length m ⟨s.id, s.off, n⟩ ⟨h.1, fun j hj => h.2 j (by simp at hj; omega)⟩
      unfold Mem.read at hlen
      simp only at hlen
      rw [List.range_succ, List.filterMap_append]
      by_cases hin : i < n
      · rw [List.getElem?_append_left (by rw [hlen]; exact hin)]
        exact ih (by omega) i hin
      · have : i = n := by omega
        subst this
        rw [List.getElem?_append_right (by rw [hlen]), hlen]
        obtain ⟨v, hv⟩ := h.2 i (by omega)
        rw [show m.cell s.id (s.off + i) = some v from hv]
        simp [show m.cell s.id (s.off + i) = some v from hv]
  exact this s.len (Nat.le_refl _) i hi

/-- **C124** `ResizeAndSpan(n)` of an item of the right type, when it returns: the span has exactly `n` elements, all of them can be read
and belong to the item; those that were in the item before keep their values (a scalar counts as one element), the others are
default values; memory that existed is unchanged. It throws exactly for read-only views and views shorter than `n`. -/
theorem C124_resize (dflt : T) (m : Mem T) (n : Nat) :
    (∀ v, ∃ m' id, resizeAndSpan dflt m (.scalar v) n = .ok (m', .array id 0 n false false, ⟨id, 0, n⟩) ∧ m.next ≤ id ∧
      (∀ i < n, At m' ⟨id, 0, n⟩ i (if i = 0 then v else dflt)) ∧ ∀ id' k, id' < m.next → m'.cell id' k = m.cell id' k) ∧
    (∀ s : Span, Live m s → ∃ m' t len', resizeAndSpan dflt m (.array s.id s.off s.len false false) n =
        .ok (m', .array t.id t.off len' false false, t) ∧ t.len = n ∧ len' = max s.len n ∧ 
      (∀ i < n, ∀ a, i < s.len → At m s i a → At m' t i a) ∧ (∀ i < n, s.len ≤ i → At m' t i dflt) ∧
      ∀ id' k, id' < m.next → m'.cell id' k = m.cell id' k) ∧
    (∀ s : Span, resizeAndSpan dflt m (.array s.id s.off s.len true true) n = .throws) ∧
    (∀ s : Span, s.len < n → resizeAndSpan dflt m (.array s.id s.off s.len true false) n = .throws) ∧
    ∀ s : Span, n ≤ s.len → resizeAndSpan dflt m (.array s.id s.off s.len true false) n =
      .ok (m, .array s.id s.off s.len true false, ⟨s.id, s.off, n⟩) := by
  refine ⟨fun v => ?_, fun s hs => ?_, fun s => rfl, fun s h => ?_, fun s h => ?_⟩
  · refine ⟨(m.alloc ((List.replicate n dflt).set 0 v)).1, m.next, rfl, Nat.le_refl _, fun i hi => ?_, fun id' k h => ?_⟩
    · unfold At
      show (m.alloc _).1.cell m.next (0 + i) = _
      rw [alloc_cell, Nat.zero_add, List.getElem?_set]
      by_cases h0 : i = 0
      · subst h0; simp [hi]
      · simp [h0, Ne.symm h0, hi]
    · exact if_neg (by omega)
  · by_cases hlt : s.len < n
    · refine ⟨(m.alloc (m.read ⟨s.id, s.off, s.len⟩ ++ List.replicate (n - s.len) dflt)).1, ⟨m.next, 0, n⟩, n, ?_, rfl, by omega,
        fun i hi a his ha => ?_, fun i hi his => ?_, fun id' k h => if_neg (by omega)⟩
      · simp only [resizeAndSpan, if_pos hlt]; rfl
      · unfold At
        show (m.alloc _).1.cell m.next (0 + i) = _
        rw [alloc_cell, Nat.zero_add, List.getElem?_append_left (by rw [read_length m _ hs]; exact his)]
        rw [read_getElem? m _ hs i his]
        exact ha
      · unfold At
        show (m.alloc _).1.cell m.next (0 + i) = _
        rw [alloc_cell, Nat.zero_add, List.getElem?_append_right (by rw [read_length m _ hs]; exact his)]
        rw [read_length m _ hs]
        rw [List.getElem?_replicate]
        exact if_pos (by show i - s.len < n - s.len; omega)
    · refine ⟨m, ⟨s.id, s.off, n⟩, s.len, ?_, rfl, by omega, fun i hi a his ha => ha, fun i hi his => by omega, fun _ _ _ => rfl⟩
      simp only [resizeAndSpan, if_neg hlt]
  · have h1 : ¬ s.len = n := by omega
    have h2 : ¬ n < s.len := by omega
    simp [resizeAndSpan, h1, h2]
  · rcases Nat.lt_or_eq_of_le h with h | h
    · have h1 : ¬ s.len = n := by omega
      simp [resizeAndSpan, h1, h]
    · subst h; simp [resizeAndSpan]

/-- **C124** Data of another type: an array of another type counts as an array and is refused by an exception wherever its elements
would be used; nothing is stored. Comparing it with a scalar of the right type is `false`, with an array is an exception. -/
theorem C124_foreign (sch : Sched) (order : List Nat) (f : T → Option T) (g : T → T → Option T) (p : T → Bool) (eq : T → T → Bool)
    (m : Mem T) (v ro : Bool) (b : T) (s : Span) (v' ro' : Bool) :
    callUnary sch f m (.foreign true v ro) = .throws ∧ callUnary sch f m (.foreign false v ro) = .throws ∧
    callBool sch p m (.foreign true v ro) = .throws ∧ callBool sch p m (.foreign false v ro) = .throws ∧
    callBinary sch g m (.foreign true v ro) (.array s.id s.off s.len v' ro') = .throws ∧
    callBinary sch g m (.array s.id s.off s.len v' ro') (.foreign true v ro) = .throws ∧
    callBinary sch g m (.foreign false v ro) (.scalar b) = .throws ∧
    callUnaryInplace sch f m (.foreign true v ro) = ⟨.throws, m, .foreign true v ro⟩ ∧
    callBinaryInplace sch g m (.foreign true v ro) (.scalar b) = ⟨.throws, m, .foreign true v ro⟩ ∧
    equalItems order eq m (.foreign true v ro) (.scalar b) = .ok false ∧
    equalItems order eq m (.foreign true v ro) (.array s.id s.off s.len v' ro') = .throws ∧
    equalItems order eq m (.foreign false v ro) (.scalar b) = .throws :=
  ⟨rfl, rfl, rfl, rfl, rfl, by simp [callBinary, Item.isArray, asConstSpan, Res.bind], rfl, rfl, rfl, rfl, rfl, rfl⟩

end Verif.Item
