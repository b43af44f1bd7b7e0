/-
Parties and ranks of the black-box transport, read from the environment
(factory_brpc_blackbox.cc L40-71).  The model is in Verif/Link/Blackbox.lean.
-/
import Verif.Link.Blackbox
import Mathlib.Data.Char

namespace Yacl.Link.Blackbox

/-! ### Specification -/

/-- The variable that announces a party. -/
def nodeVar (p : Str × Str) : Str := nodePrefix ++ p.1 ++ '=' :: p.2

/-- The variable that says who one is. -/
def selfVar (self : Str) : Str := selfKey ++ '=' :: self

/-- A name that can be announced: no `=`, and the prefix does not occur in it. -/
def GoodName (s : Str) : Prop := '=' ∉ s ∧ ∀ i, nodePrefix.isPrefixOf (s.drop i) = false

/-- A variable that is none of the two. -/
def Other (v : Str) : Prop :=
  nodePrefix.isPrefixOf ((splitEq v).headD []) = false ∧ selfKey.isPrefixOf ((splitEq v).headD []) = false

/-! ### Lemmas -/

theorem splitEq_ne (s : Str) : splitEq s ≠ [] := by
  cases s with
  | nil => simp [splitEq]
  | cons c cs =>
    unfold splitEq
    split_ifs
    · simp
    · split <;> simp

theorem splitEq_plain (s : Str) (h : '=' ∉ s) : splitEq s = [s] := by
  induction s with
  | nil => rfl
  | cons c cs ih =>
    have hc : c ≠ '=' := fun e => h (by rw [e]; exact List.mem_cons_self)
    have := ih (fun hm => h (List.mem_cons_of_mem _ hm))
    simp [splitEq, hc, this]

theorem splitEq_one (k v : Str) (hk : '=' ∉ k) (hv : '=' ∉ v) : splitEq (k ++ '=' :: v) = [k, v] := by
  induction k with
  | nil => simp [splitEq, splitEq_plain v hv]
  | cons c cs ih =>
    have hc : c ≠ '=' := fun e => hk (by rw [e]; exact List.mem_cons_self)
    have := ih (fun hm => hk (List.mem_cons_of_mem _ hm))
    simp [splitEq, hc, this]

theorem eraseAll_none (s : Str) (h : ∀ i, nodePrefix.isPrefixOf (s.drop i) = false) (fuel : Nat) :
    eraseAll fuel s = s := by
  induction s generalizing fuel with
  | nil => cases fuel <;> rfl
  | cons c cs ih =>
    cases fuel with
    | zero => rfl
    | succ fuel =>
      have h0 := h 0
      rw [List.drop_zero] at h0
      unfold eraseAll
      rw [if_neg (by rw [h0]; simp), ih (fun i => h (i + 1))]

theorem eraseAll_prefix (s : Str) (h : ∀ i, nodePrefix.isPrefixOf (s.drop i) = false) (fuel : Nat) :
    eraseAll (fuel + 1) (nodePrefix ++ s) = s := by
  have hc : nodePrefix ++ s = 'c' :: ("onfig.node_id.".toList ++ s) := rfl
  have hp : nodePrefix.isPrefixOf (nodePrefix ++ s) = true := by
    rw [List.isPrefixOf_iff_prefix]; exact List.prefix_append _ _
  rw [hc] at hp ⊢
  unfold eraseAll
  rw [if_pos hp, ← hc, List.drop_left, eraseAll_none s h]

/-- What a variable says. -/
inductive Cls where
  | node (p : Str × Str)
  | self (s : Str)
  | other
  | bad

def cls (v : Str) : Cls :=
  match splitEq v with
  | [] => .bad
  | k :: vs =>
    if nodePrefix.isPrefixOf k then
      match vs with
      | [x] => .node (eraseAll k.length k, x)
      | _ => .bad
    else if selfKey.isPrefixOf k then
      match vs with
      | [x] => .self x
      | _ => .bad
    else .other

theorem envStep_cls (st : List (Str × Str) × Str) (v : Str) :
    envStep st v = match cls v with
      | .node p => if p.1 ∈ st.1.map Prod.fst then none else some (insertParty p.1 p.2 st.1, st.2)
      | .self s => if st.2 = [] then some (st.1, s) else none
      | .other => some st
      | .bad => none := by
  unfold envStep cls
  cases splitEq v with
  | nil => rfl
  | cons k vs =>
    simp only
    by_cases h1 : nodePrefix.isPrefixOf k = true
    · simp only [h1, if_true]
      match vs with
      | [] => rfl
      | [x] => rfl
      | _ :: _ :: _ => rfl
    · simp only [h1]
      by_cases h2 : selfKey.isPrefixOf k = true
      · simp only [h2, if_true]
        match vs with
        | [] => rfl
        | [x] => rfl
        | _ :: _ :: _ => rfl
      · simp only [h2]
        rfl

def nodes (env : List Str) : List (Str × Str) :=
  env.filterMap fun v => match cls v with | .node p => some p | _ => none

def selfs (env : List Str) : List Str :=
  env.filterMap fun v => match cls v with | .self s => some s | _ => none

theorem cls_node (p : Str × Str) (h1 : GoodName p.1) (h2 : '=' ∉ p.2) : cls (nodeVar p) = .node p := by
  have hk : '=' ∉ nodePrefix ++ p.1 := by
    rw [List.mem_append]; rintro (h | h)
    · revert h; decide
    · exact h1.1 h
  have hp : nodePrefix.isPrefixOf (nodePrefix ++ p.1) = true := by
    rw [List.isPrefixOf_iff_prefix]; exact List.prefix_append _ _
  have hl : (nodePrefix ++ p.1).length = (p.1.length + 14) + 1 := by
    rw [List.length_append, show nodePrefix.length = 15 from rfl]; omega
  unfold cls nodeVar
  rw [splitEq_one _ _ hk h2]
  simp only [hp, if_true, hl]
  rw [eraseAll_prefix _ h1.2]

theorem cls_self (s : Str) (h : '=' ∉ s) : cls (selfVar s) = .self s := by
  unfold cls selfVar
  rw [splitEq_one _ _ (by decide) h]
  have h1 : nodePrefix.isPrefixOf selfKey = false := by decide
  have h2 : selfKey.isPrefixOf selfKey = true := by decide
  simp [h1, h2]

theorem cls_other (v : Str) (h : Other v) : cls v = .other := by
  obtain ⟨h1, h2⟩ := h
  unfold cls
  cases hs : splitEq v with
  | nil => exact absurd hs (splitEq_ne v)
  | cons k vs =>
    rw [hs] at h1 h2
    simp only [List.headD_cons] at h1 h2
    simp [h1, h2]

/-- Strictly ordered by name. -/
def Ordered (l : List (Str × Str)) : Prop := l.Pairwise fun a b => a.1 < b.1

theorem insertParty_perm (k v : Str) (l : List (Str × Str)) : (insertParty k v l).Perm ((k, v) :: l) := by
  induction l with
  | nil => exact List.Perm.refl _
  | cons p ps ih =>
    unfold insertParty
    split_ifs
    · exact List.Perm.refl _
    · exact (ih.cons p).trans (List.Perm.swap _ _ _)

theorem insertParty_ordered (k v : Str) (l : List (Str × Str)) (h : Ordered l)
    (hk : k ∉ l.map Prod.fst) : Ordered (insertParty k v l) := by
  induction l with
  | nil => exact List.pairwise_singleton _ _
  | cons p ps ih =>
    obtain ⟨h1, h2⟩ := List.pairwise_cons.1 h
    unfold insertParty
    split_ifs with hlt
    · refine List.pairwise_cons.2 ⟨?_, h⟩
      intro q hq
      rcases List.mem_cons.1 hq with rfl | hq
      · exact hlt
      · exact lt_trans hlt (h1 q hq)
    · have hne : k ≠ p.1 := fun e => hk (by simp [e])
      have hgt : p.1 < k := lt_of_le_of_ne (not_lt.1 hlt) hne.symm
      refine List.pairwise_cons.2 ⟨?_, ih h2 (fun hm => hk (by simp at hm ⊢; exact Or.inr hm))⟩
      intro q hq
      rcases List.mem_cons.1 ((insertParty_perm k v ps).subset hq) with rfl | hq
      · exact hgt
      · exact h1 q hq

theorem fold_spec (self : Str) (env : List Str) : ∀ st : List (Str × Str) × Str,
    (∀ v ∈ env, cls v ≠ .bad) → ((nodes env).map Prod.fst ++ st.1.map Prod.fst).Nodup →
    ((st.2 = [] ∧ selfs env = [self]) ∨ (st.2 = self ∧ selfs env = [])) → Ordered st.1 →
    ∃ l, env.foldlM envStep st = some (l, self) ∧ l.Perm (nodes env ++ st.1) ∧ Ordered l := by
  induction env with
  | nil =>
    intro st _ _ hs ho
    rcases hs with ⟨-, h⟩ | ⟨h, -⟩
    · simp [selfs] at h
    · exact ⟨st.1, by simp [List.foldlM_nil, ← h], by simp [nodes], ho⟩
  | cons v env ih =>
    intro st hb hn hs ho
    have hv := hb v List.mem_cons_self
    have hb' : ∀ w ∈ env, cls w ≠ .bad := fun w hw => hb w (List.mem_cons_of_mem _ hw)
    rw [List.foldlM_cons, envStep_cls]
    cases hc : cls v with
    | bad => exact absurd hc hv
    | other =>
      have e1 : nodes (v :: env) = nodes env := by simp [nodes, hc]
      have e2 : selfs (v :: env) = selfs env := by simp [selfs, hc]
      rw [e1] at hn ⊢
      rw [e2] at hs
      simp only [Option.bind_eq_bind, Option.bind_some]
      exact ih st hb' hn hs ho
    | self s =>
      have e1 : nodes (v :: env) = nodes env := by simp [nodes, hc]
      have e2 : selfs (v :: env) = s :: selfs env := by simp [selfs, hc]
      rw [e1] at hn ⊢
      rw [e2] at hs
      rcases hs with ⟨h1, h2⟩ | ⟨-, h2⟩
      · rw [List.cons.injEq] at h2
        simp only [h1, if_true, Option.bind_eq_bind, Option.bind_some]
        exact ih (st.1, s) hb' hn (Or.inr ⟨h2.1, h2.2⟩) ho
      · cases h2
    | node p =>
      have e1 : nodes (v :: env) = p :: nodes env := by simp [nodes, hc]
      have e2 : selfs (v :: env) = selfs env := by simp [selfs, hc]
      rw [e1] at hn ⊢
      rw [e2] at hs
      rw [List.map_cons, List.cons_append, List.nodup_cons] at hn
      have hp : p.1 ∉ st.1.map Prod.fst := fun hm => hn.1 (List.mem_append_right _ hm)
      simp only [hp, if_false, Option.bind_eq_bind, Option.bind_some]
      have hperm := insertParty_perm p.1 p.2 st.1
      have hfst : ((insertParty p.1 p.2 st.1).map Prod.fst).Perm (p.1 :: st.1.map Prod.fst) := by
        simpa using hperm.map Prod.fst
      obtain ⟨l, g1, g2, g3⟩ := ih (insertParty p.1 p.2 st.1, st.2) hb' (by
        refine ((List.Perm.append_left _ hfst).nodup_iff).2 ?_
        refine (List.perm_middle.nodup_iff).2 ?_
        exact List.nodup_cons.2 hn) hs (insertParty_ordered _ _ _ ho hp)
      refine ⟨l, g1, g2.trans ?_, g3⟩
      refine (List.Perm.append_left _ hperm).trans ?_
      exact List.perm_middle

/-- C113 (j): parties and ranks from the environment.  If every party is announced once, with a
    name and a node free of `=` (and a name free of the prefix), and the own name is one of them,
    then, whatever the order of the variables and whatever other variables there are, the result
    is the list of parties in the order of their names and the own place in it. -/
theorem C113_env (parties : List (Str × Str)) (self : Str) (others env : List Str)
    (hp : ∀ p ∈ parties, GoodName p.1 ∧ '=' ∉ p.2) (hn : (parties.map Prod.fst).Nodup)
    (hs : self ∈ parties.map Prod.fst) (hse : '=' ∉ self) (ho : ∀ v ∈ others, Other v)
    (henv : env.Perm (parties.map nodeVar ++ selfVar self :: others)) :
    ∃ l rank, partiesFromEnv env = some (l, rank) ∧ l.Perm parties ∧
      l.Pairwise (fun a b => a.1 < b.1) ∧ (l[rank]?).map Prod.fst = some self := by
  have hcls : ∀ v ∈ env, cls v ≠ .bad := by
    intro v hv
    rcases List.mem_append.1 (henv.subset hv) with h | h
    · obtain ⟨p, hpm, rfl⟩ := List.mem_map.1 h
      rw [cls_node p (hp p hpm).1 (hp p hpm).2]; simp
    · rcases List.mem_cons.1 h with rfl | h
      · rw [cls_self self hse]; simp
      · rw [cls_other v (ho v h)]; simp
  have hnodes : (nodes env).Perm parties := by
    refine (henv.filterMap _).trans ?_
    rw [List.filterMap_append, List.filterMap_cons, cls_self self hse]
    have h1 : (parties.map nodeVar).filterMap (fun v => match cls v with | .node p => some p | _ => none) = parties := by
      rw [List.filterMap_map]
      conv_rhs => rw [← List.filterMap_some (l := parties)]
      apply List.filterMap_congr
      intro p hpm
      simp only [Function.comp, cls_node p (hp p hpm).1 (hp p hpm).2]
    have h2 : others.filterMap (fun v => match cls v with | .node p => some p | _ => none) = [] := by
      rw [List.filterMap_eq_nil_iff]
      intro v hv
      simp only [cls_other v (ho v hv)]
    simp only [h1, h2, List.append_nil]
    exact List.Perm.refl _
  have hselfs : selfs env = [self] := by
    have : (selfs env).Perm [self] := by
      refine (henv.filterMap _).trans ?_
      rw [List.filterMap_append, List.filterMap_cons, cls_self self hse]
      have h1 : (parties.map nodeVar).filterMap (fun v => match cls v with | .self s => some s | _ => none) = [] := by
        rw [List.filterMap_eq_nil_iff]
        intro v hv
        obtain ⟨p, hpm, rfl⟩ := List.mem_map.1 hv
        simp only [cls_node p (hp p hpm).1 (hp p hpm).2]
      have h2 : others.filterMap (fun v => match cls v with | .self s => some s | _ => none) = [] := by
        rw [List.filterMap_eq_nil_iff]
        intro v hv
        simp only [cls_other v (ho v hv)]
      simp only [h1, h2, List.nil_append]
      exact List.Perm.refl _
    exact List.perm_singleton.1 this
  obtain ⟨l, h1, h2, h3⟩ := fold_spec self env ([], []) hcls
    (by simpa using (hnodes.map Prod.fst).nodup_iff.2 hn) (Or.inl ⟨rfl, hselfs⟩) List.Pairwise.nil
  have hl : l.Perm parties := by
    refine h2.trans ?_
    rw [List.append_nil]; exact hnodes
  have hm : self ∈ l.map Prod.fst := (hl.map Prod.fst).symm.subset hs
  refine ⟨l, (l.map Prod.fst).idxOf self, ?_, hl, h3, ?_⟩
  · unfold partiesFromEnv
    rw [h1, Option.bind_some]
    simp only [hm, if_true]
  · have hlt : (l.map Prod.fst).idxOf self < (l.map Prod.fst).length := List.idxOf_lt_length_iff.2 hm
    rw [← List.getElem?_map, List.getElem?_eq_getElem hlt, List.getElem_idxOf]

/-- C113 (k): so all parties count alike: two parties that see the same announcements, in
    whatever order, get the same list, and each finds itself where the other one finds it. -/
theorem C113_env_agree (parties : List (Str × Str)) (self self' : Str) (others others' env env' : List Str)
    (hp : ∀ p ∈ parties, GoodName p.1 ∧ '=' ∉ p.2) (hn : (parties.map Prod.fst).Nodup)
    (hs : self ∈ parties.map Prod.fst) (hse : '=' ∉ self)
    (hs' : self' ∈ parties.map Prod.fst) (hse' : '=' ∉ self')
    (ho : ∀ v ∈ others, Other v) (ho' : ∀ v ∈ others', Other v)
    (henv : env.Perm (parties.map nodeVar ++ selfVar self :: others))
    (henv' : env'.Perm (parties.map nodeVar ++ selfVar self' :: others')) :
    ∃ l rank rank', partiesFromEnv env = some (l, rank) ∧ partiesFromEnv env' = some (l, rank') ∧
      (l[rank]?).map Prod.fst = some self ∧ (l[rank']?).map Prod.fst = some self' ∧
      (self = self' ↔ rank = rank') := by
  obtain ⟨l, r, h1, h2, h3, h4⟩ := C113_env parties self others env hp hn hs hse ho henv
  obtain ⟨l', r', g1, g2, g3, g4⟩ := C113_env parties self' others' env' hp hn hs' hse' ho' henv'
  have hll : l' = l := by
    refine (g2.trans h2.symm).eq_of_pairwise (le := fun a b => a.1 < b.1) ?_ g3 h3
    intro a b _ _ hab hba
    exact absurd (lt_trans hab hba) (lt_irrefl _)
  subst hll
  refine ⟨l', r, r', h1, g1, h4, g4, ?_⟩
  have hnd : (l'.map Prod.fst).Nodup := (h2.map Prod.fst).nodup_iff.2 hn
  rw [← List.getElem?_map] at h4 g4
  obtain ⟨hr, e1⟩ := List.getElem?_eq_some_iff.1 h4
  obtain ⟨hr', e2⟩ := List.getElem?_eq_some_iff.1 g4
  constructor
  · intro h
    exact (List.Nodup.getElem_inj_iff hnd).1 (by rw [e1, e2, h])
  · rintro rfl
    rw [← e1, ← e2]

/-- Values with `=` in them (padding of base64, say) are refused, a name loses every occurrence
    of the prefix, and a variable that only begins with the key for the own role counts as one. -/
theorem C113_env_violated :
    (partiesFromEnv ["config.node_id.a=n==".toList, "config.self_role=a".toList] = none) ∧
    (partiesFromEnv ["config.node_id.xconfig.node_id.y=n".toList, "config.self_role=xy".toList]
      = some ([("xy".toList, "n".toList)], 0)) ∧
    (partiesFromEnv ["config.node_id.a=n".toList, "config.self_role_old=b".toList,
      "config.self_role=a".toList] = none) := by
  decide +kernel

example : partiesFromEnv ["PATH=/bin".toList, "config.node_id.bob=n2".toList, "config.self_role=bob".toList,
      "config.node_id.alice=n1".toList]
    = some ([("alice".toList, "n1".toList), ("bob".toList, "n2".toList)], 1) := by decide +kernel

example : GoodName "bob".toList ∧ Other "PATH=/bin".toList ∧ Other "A=b=c".toList := by
  refine ⟨⟨by decide, ?_⟩, ⟨by decide +kernel, by decide +kernel⟩, ⟨by decide +kernel, by decide +kernel⟩⟩
  intro i
  match i with
  | 0 => decide
  | 1 => decide
  | 2 => decide
  | n + 3 =>
    rw [List.drop_eq_nil_of_le (by show 3 ≤ n + 3; omega)]
    decide

end Yacl.Link.Blackbox
