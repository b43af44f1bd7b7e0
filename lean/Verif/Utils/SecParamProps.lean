import Verif.Utils.SecParamModel
import Mathlib.Tactic.Common
import Mathlib.Data.List.Basic
import Mathlib.Logic.Function.Iterate

/-! C141: CRC-32 of module names, the compile time counter and the global security parameter. -/

namespace Yacl.SecParam

/-! ### Specification -/

/-- One bit of CRC-32: divide by the polynomial 0xEDB88320 (bits reversed). -/
def bitStep (c : BitVec 32) : BitVec 32 := if c.getLsbD 0 then (c >>> 1) ^^^ 0xEDB88320#32 else c >>> 1

/-- One byte of CRC-32. -/
def byteStep (c : BitVec 32) (b : BitVec 8) : BitVec 32 := bitStep^[8] (c ^^^ b.setWidth 32)

/-- CRC-32 of a byte string, bit by bit: start with all ones, complement at the end. -/
def crc32Spec (str : List (BitVec 8)) : BitVec 32 := ~~~ (str.foldl byteStep (BitVec.allOnes 32))

/-! ### CRC-32 -/

theorem bitStep_xor (a b : BitVec 32) : bitStep (a ^^^ b) = bitStep a ^^^ bitStep b := by
  unfold bitStep
  rw [BitVec.getLsbD_xor, BitVec.ushiftRight_xor_distrib]
  generalize a >>> 1 = a', b >>> 1 = b', 0xEDB88320#32 = p
  cases a.getLsbD 0 <;> cases b.getLsbD 0 <;> simp
  · rw [BitVec.xor_assoc]
  · rw [BitVec.xor_assoc, BitVec.xor_assoc, BitVec.xor_comm b' p]
  · calc a' ^^^ b' = a' ^^^ b' ^^^ (p ^^^ p) := by simp
      _ = a' ^^^ p ^^^ (b' ^^^ p) := by ac_rfl

theorem iter_xor (n : ℕ) (a b : BitVec 32) : bitStep^[n] (a ^^^ b) = bitStep^[n] a ^^^ bitStep^[n] b := by
  induction n generalizing a b with
  | zero => rfl
  | succ n ih => rw [Function.iterate_succ_apply, bitStep_xor, ih]; rfl

theorem iter_shift (n : ℕ) (x : BitVec 32) (h : ∀ i < n, x.getLsbD i = false) : bitStep^[n] x = x >>> n := by
  induction n generalizing x with
  | zero => simp
  | succ n ih =>
    rw [Function.iterate_succ_apply]
    have h0 := h 0 (by omega)
    have : bitStep x = x >>> 1 := by unfold bitStep; rw [h0]; rfl
    rw [this, ih _ (fun i hi => by rw [BitVec.getLsbD_ushiftRight]; exact h _ (by omega)),
      ← BitVec.shiftRight_add, Nat.add_comm]

theorem table_spec : ∀ i : Fin 256, crcTable.getD i.val 0 = bitStep^[8] (BitVec.ofNat 32 i.val) := by decide +kernel

theorem mask_ff : (0x000000FF#32) = (BitVec.allOnes 8).setWidth 32 := by decide

/-- Eight bits at once. -/
theorem iter8 (c : BitVec 32) : bitStep^[8] c = (c >>> 8) ^^^ bitStep^[8] (c &&& 0x000000FF#32) := by
  have e : c = (c &&& ~~~ 0x000000FF#32) ^^^ (c &&& 0x000000FF#32) := by
    apply BitVec.eq_of_getLsbD_eq
    intro i hi
    simp only [BitVec.getLsbD_xor, BitVec.getLsbD_and, BitVec.getLsbD_not, hi, decide_true, Bool.true_and]
    cases c.getLsbD i <;> cases (0x000000FF#32).getLsbD i <;> rfl
  have h1 : bitStep^[8] (c &&& ~~~ 0x000000FF#32) = (c &&& ~~~ 0x000000FF#32) >>> 8 := by
    apply iter_shift
    intro i hi
    rw [BitVec.getLsbD_and, BitVec.getLsbD_not, mask_ff, BitVec.getLsbD_setWidth, BitVec.getLsbD_allOnes]
    simp [hi]
  have h2 : (c &&& ~~~ 0x000000FF#32) >>> 8 = c >>> 8 := by
    apply BitVec.eq_of_getLsbD_eq
    intro i hi
    rw [BitVec.getLsbD_ushiftRight, BitVec.getLsbD_ushiftRight, BitVec.getLsbD_and, BitVec.getLsbD_not, mask_ff,
      BitVec.getLsbD_setWidth, BitVec.getLsbD_allOnes]
    by_cases h : 8 + i < 32
    · simp [h]
    · rw [BitVec.getLsbD_of_ge c _ (by omega)]; simp
  conv => lhs; rw [e]
  rw [iter_xor, h1, h2]

theorem promote_low (sg : Bool) (c : BitVec 32) (b : BitVec 8) :
    (c ^^^ promote sg b) &&& 0x000000FF#32 = (c ^^^ b.setWidth 32) &&& 0x000000FF#32 := by
  apply BitVec.eq_of_getLsbD_eq
  intro i hi
  simp only [BitVec.getLsbD_and, BitVec.getLsbD_xor]
  rw [mask_ff, BitVec.getLsbD_setWidth (x := BitVec.allOnes 8), BitVec.getLsbD_allOnes]
  by_cases h : i < 8
  · have : (promote sg b).getLsbD i = (b.setWidth 32).getLsbD i := by
      unfold promote
      cases sg
      · rfl
      · simp [BitVec.getLsbD_signExtend, h]
    rw [this]
  · simp [h]

theorem step_eq (sg : Bool) (c : BitVec 32) (b : BitVec 8) :
    (c >>> 8) ^^^ crcTable.getD ((c ^^^ promote sg b) &&& 0x000000FF#32).toNat 0 = byteStep c b := by
  rw [promote_low]
  unfold byteStep
  rw [iter8]
  have hs : (c ^^^ b.setWidth 32) >>> 8 = c >>> 8 := by
    apply BitVec.eq_of_getLsbD_eq
    intro i hi
    rw [BitVec.getLsbD_ushiftRight, BitVec.getLsbD_ushiftRight, BitVec.getLsbD_xor, BitVec.getLsbD_setWidth,
      BitVec.getLsbD_of_ge b _ (by omega)]
    simp
  rw [hs]
  congr 1
  have hlt : ((c ^^^ b.setWidth 32) &&& 0x000000FF#32).toNat < 256 := by
    rw [BitVec.toNat_and]
    exact lt_of_le_of_lt Nat.and_le_right (by decide)
  have := table_spec ⟨_, hlt⟩
  simp only [BitVec.ofNat_toNat, BitVec.setWidth_eq] at this
  exact this

theorem crcRec_spec (sg : Bool) (str : List (BitVec 8)) (n : ℕ) (hn : n ≤ str.length) :
    crcRec sg str n = (str.take n).foldl byteStep (BitVec.allOnes 32) := by
  induction n with
  | zero => simp only [crcRec, List.take_zero, List.foldl_nil]; decide
  | succ n ih =>
    unfold crcRec
    rw [step_eq, ih (by omega), List.take_add_one, List.foldl_append]
    have : str[n]? = some (str.getD n 0) := by
      rw [List.getD_eq_getElem?_getD, List.getElem?_eq_getElem (by omega)]; simp
    rw [this]
    rfl

theorem ctCrc32_fold (sg : Bool) (str : List (BitVec 8)) :
    ctCrc32 sg str = str.foldl byteStep (BitVec.allOnes 32) ^^^ 0xFFFFFFFF#32 := by
  rw [ctCrc32, crcRec_spec sg str _ le_rfl, List.take_length]

/-- C141 (a): the hash of a name is CRC-32, whether `char` is signed or not. -/
theorem C141_crc (sg : Bool) (str : List (BitVec 8)) : ctCrc32 sg str = crc32Spec str := by
  rw [ctCrc32_fold, crc32Spec]
  generalize str.foldl byteStep (BitVec.allOnes 32) = x
  apply BitVec.eq_of_getLsbD_eq
  intro i hi
  have : (0xFFFFFFFF#32) = BitVec.allOnes 32 := by decide
  rw [this, BitVec.getLsbD_xor, BitVec.getLsbD_not, BitVec.getLsbD_allOnes]
  simp [hi]

/-- The check value of CRC-32, of "123456789"; and the empty name. -/
example : ctCrc32 true ([49, 50, 51, 52, 53, 54, 55, 56, 57] : List (BitVec 8)) = 0xCBF43926#32 ∧ ctCrc32 false [] = 0 := by
  decide +kernel

theorem bitStep_inj : Function.Injective bitStep := by
  intro a b h
  have h0 : bitStep (a ^^^ b) = 0 := by rw [bitStep_xor, h]; simp
  have key : ∀ x : BitVec 32, bitStep x = 0 → x = 0 := by
    intro x hx
    unfold bitStep at hx
    split at hx
    · exfalso
      have := congrArg (fun y : BitVec 32 => y.getLsbD 31) hx
      simp only [BitVec.getLsbD_xor, BitVec.getLsbD_ushiftRight] at this
      rw [BitVec.getLsbD_of_ge x _ (by omega)] at this
      simp at this
    · rename_i hb
      apply BitVec.eq_of_getLsbD_eq
      intro i hi
      cases i with
      | zero => simpa using hb
      | succ i =>
        have := congrArg (fun y : BitVec 32 => y.getLsbD i) hx
        simp only [BitVec.getLsbD_ushiftRight] at this
        rw [Nat.add_comm]
        simpa using this
  have := key _ h0
  exact BitVec.xor_eq_zero_iff.1 this

theorem iter_inj (n : ℕ) : Function.Injective (bitStep^[n]) := bitStep_inj.iterate n

theorem byteStep_inj (b : BitVec 8) : Function.Injective fun c => byteStep c b := by
  intro c c' h
  have := iter_inj 8 h
  exact BitVec.xor_left_inj _ |>.1 this

theorem fold_inj (q : List (BitVec 8)) : Function.Injective fun c => q.foldl byteStep c := by
  induction q with
  | nil => exact fun _ _ h => h
  | cons b q ih => exact fun c c' h => byteStep_inj b (ih h)

/-- Up to four bytes as one word, little endian. -/
def word : List (BitVec 8) → BitVec 32
  | [] => 0
  | b :: bs => b.setWidth 32 ^^^ (word bs <<< 8)

theorem word_bits (u : List (BitVec 8)) (i : ℕ) (hi : i < 32) :
    (word u).getLsbD i = (u.getD (i / 8) 0).getLsbD (i % 8) := by
  induction u generalizing i with
  | nil => simp [word]
  | cons b u ih =>
    rw [word, BitVec.getLsbD_xor, BitVec.getLsbD_setWidth, BitVec.getLsbD_shiftLeft]
    by_cases h : i < 8
    · have e1 : i / 8 = 0 := by omega
      have e2 : i % 8 = i := by omega
      simp [h, hi, e1, e2]
    · obtain ⟨j, rfl⟩ : ∃ j, i = j + 8 := ⟨i - 8, by omega⟩
      have e1 : (j + 8) / 8 = j / 8 + 1 := by omega
      have e2 : (j + 8) % 8 = j % 8 := by omega
      have e3 : j + 8 - 8 = j := by omega
      rw [BitVec.getLsbD_of_ge b _ (by omega), e1, e2, e3, ih j (by omega)]
      simp [hi]

theorem fold_word (u : List (BitVec 8)) (hu : u.length ≤ 4) (c : BitVec 32) :
    u.foldl byteStep c = bitStep^[8 * u.length] (c ^^^ word u) := by
  induction u generalizing c with
  | nil => simp [word]
  | cons b u ih =>
    simp only [List.length_cons] at hu
    have e : byteStep c b ^^^ word u = bitStep^[8] (c ^^^ word (b :: u)) := by
      rw [byteStep, word, ← BitVec.xor_assoc, iter_xor 8 (c ^^^ b.setWidth 32)]
      congr 1
      rw [iter_shift]
      · apply BitVec.eq_of_getLsbD_eq
        intro i hi
        rw [BitVec.getLsbD_ushiftRight, BitVec.getLsbD_shiftLeft]
        by_cases h : 8 + i < 32
        · have : 8 + i - 8 = i := by omega
          simp [h, this]
        · rw [word_bits u i hi, List.getD_eq_getElem?_getD, List.getElem?_eq_none (by omega)]
          simp [h]
      · intro i hi
        rw [BitVec.getLsbD_shiftLeft]; simp [hi]
    rw [List.foldl_cons, ih (by omega), e, ← Function.iterate_add_apply, List.length_cons]
    congr 2

theorem word_inj (u v : List (BitVec 8)) (h : u.length = v.length) (hu : u.length ≤ 4) (e : word u = word v) : u = v := by
  apply List.ext_getElem h
  intro j h1 h2
  apply BitVec.eq_of_getLsbD_eq
  intro i hi
  have e1 := word_bits u (8 * j + i) (by omega)
  have e2 := word_bits v (8 * j + i) (by omega)
  have d : (8 * j + i) / 8 = j := by omega
  have m : (8 * j + i) % 8 = i := by omega
  rw [d, m, List.getD_eq_getElem?_getD, List.getElem?_eq_getElem (by omega), Option.getD_some] at e1 e2
  rw [← e1, ← e2, e]

/-- C141 (b): names of the same length that differ only within four successive characters have different hashes. -/
theorem C141_names (sg : Bool) (p u v q : List (BitVec 8)) (hl : u.length = v.length) (h4 : u.length ≤ 4) (hne : u ≠ v) :
    ctCrc32 sg (p ++ u ++ q) ≠ ctCrc32 sg (p ++ v ++ q) := by
  intro h
  rw [ctCrc32_fold, ctCrc32_fold] at h
  have h' := (BitVec.xor_left_inj _).1 h
  simp only [List.foldl_append] at h'
  have h2 := fold_inj q h'
  rw [fold_word u h4, fold_word v (by omega), hl] at h2
  have h3 := (BitVec.xor_right_inj _).1 (iter_inj _ h2)
  exact hne (word_inj u v hl h4 h3)

example : ctCrc32 true ([97, 98, 99] : List (BitVec 8)) ≠ ctCrc32 true ([97, 120, 121] : List (BitVec 8)) :=
  C141_names true [97] [98, 99] [120, 121] [] rfl (by decide) (by decide)

/-! ### The counter -/

/-- The overloads after `k` increments. -/
def crumbsAt : ℕ → Crumbs
  | 0 => []
  | k + 1 => (((k + 1) &&& (2 ^ 64 - 1 - k), (k + 1) &&& k), k + 1) :: crumbsAt k

theorem crumbs_read : ∀ k : Fin 256, counterRead (crumbsAt k.val) = k.val := by decide +kernel

theorem crumbs_fresh : ∀ k : Fin 256,
    ((crumbsAt k.val).lookup ((k.val + 1) &&& (2 ^ 64 - 1 - k.val), (k.val + 1) &&& k.val)).isSome = false := by
  decide +kernel

theorem crumbs_read_256 : counterRead (crumbsAt 256) = 255 := by decide +kernel

theorem crumbs_inc (k : ℕ) (hk : k < 256) : counterInc (crumbsAt k) = some (crumbsAt (k + 1)) := by
  unfold counterInc
  have h1 := crumbs_read ⟨k, hk⟩
  have h2 := crumbs_fresh ⟨k, hk⟩
  simp only at h1 h2
  simp only [h1, h2, Bool.false_eq_true, if_false]
  rfl

/-! ### Units -/

/-- What the compiler knows after the declarations `ds`. -/
def stateOf (sg : Bool) (ds : List Decl) : TransUnit :=
  { modules := (ds.map fun d => (ctCrc32 sg d.name, (d.c, d.s))).reverse
    registry := (ds.mapIdx fun i d => (i, ctCrc32 sg d.name)).reverse
    crumbs := crumbsAt ds.length }

theorem lookup_none {α β : Type} [BEq α] [LawfulBEq α] (l : List (α × β)) (a : α) :
    (l.lookup a).isSome = true ↔ a ∈ l.map Prod.fst := by
  induction l with
  | nil => simp
  | cons p l ih =>
    obtain ⟨k, v⟩ := p
    rw [List.lookup_cons]
    by_cases h : a = k
    · subst h; simp
    · have : (a == k) = false := by simpa using h
      simp [this, ih, h]

theorem modules_fresh (sg : Bool) (ds : List Decl) (h : BitVec 32) :
    ((stateOf sg ds).modules.lookup h).isSome = true ↔ h ∈ ds.map fun d => ctCrc32 sg d.name := by
  rw [lookup_none]
  simp [stateOf, List.map_reverse, Function.comp_def]

theorem registry_fresh (sg : Bool) (ds : List Decl) (n : ℕ) :
    ((stateOf sg ds).registry.lookup n).isSome = true ↔ n < ds.length := by
  rw [lookup_none]
  simp only [stateOf, List.map_reverse, List.mem_reverse, List.mem_map, List.mem_mapIdx]
  constructor
  · rintro ⟨p, ⟨i, hi, rfl⟩, rfl⟩; exact hi
  · intro h; exact ⟨_, ⟨n, h, rfl⟩, rfl⟩

theorem declare_next (sg : Bool) (ds : List Decl) (d : Decl) (hl : ds.length < 256) :
    declare sg (stateOf sg ds) d =
      if ctCrc32 sg d.name ∈ ds.map (fun d => ctCrc32 sg d.name) then none else some (stateOf sg (ds ++ [d])) := by
  unfold declare
  have h1 := modules_fresh sg ds (ctCrc32 sg d.name)
  have h2 := registry_fresh sg ds ds.length
  have h3 : counterRead (stateOf sg ds).crumbs = ds.length := crumbs_read ⟨ds.length, hl⟩
  have h4 : counterInc (stateOf sg ds).crumbs = some (crumbsAt (ds.length + 1)) := crumbs_inc _ hl
  by_cases h : ctCrc32 sg d.name ∈ ds.map (fun d => ctCrc32 sg d.name)
  · rw [if_pos h]
    simp only [h1.2 h, if_true]
  · rw [if_neg h]
    have e1 : ((stateOf sg ds).modules.lookup (ctCrc32 sg d.name)).isSome = false := by
      rw [Bool.eq_false_iff]; exact fun hh => h (h1.1 hh)
    have e2 : ((stateOf sg ds).registry.lookup ds.length).isSome = false := by
      rw [Bool.eq_false_iff]; exact fun hh => absurd (h2.1 hh) (lt_irrefl _)
    simp only [e1, Bool.false_eq_true, if_false, h3, e2, h4]
    simp [stateOf, List.mapIdx_concat]

theorem compile_concat (sg : Bool) (ds : List Decl) (d : Decl) :
    compile sg (ds ++ [d]) = (compile sg ds).bind fun u => declare sg u d := by
  simp [compile, List.foldlM_append]

/-- The hashes of the declared names are different. -/
def Distinct (sg : Bool) (ds : List Decl) : Prop := (ds.map fun d => ctCrc32 sg d.name).Nodup

theorem compile_spec (sg : Bool) (ds : List Decl) (hl : ds.length ≤ 256) :
    (Distinct sg ds → compile sg ds = some (stateOf sg ds)) ∧ (¬ Distinct sg ds → compile sg ds = none) := by
  induction ds using List.reverseRecOn with
  | nil => exact ⟨fun _ => rfl, fun h => absurd List.nodup_nil h⟩
  | append_singleton ds d ih =>
    simp only [List.length_append, List.length_singleton] at hl
    obtain ⟨i1, i2⟩ := ih (by omega)
    rw [compile_concat]
    have hd : Distinct sg (ds ++ [d]) ↔ Distinct sg ds ∧ ctCrc32 sg d.name ∉ ds.map (fun d => ctCrc32 sg d.name) := by
      unfold Distinct
      rw [List.map_append, List.nodup_append]
      simp only [List.map_cons, List.map_nil, List.nodup_singleton, List.mem_singleton, true_and]
      constructor
      · rintro ⟨h1, h2⟩; exact ⟨h1, fun hm => h2 _ hm _ rfl rfl⟩
      · rintro ⟨h1, h2⟩; exact ⟨h1, fun a ha b hb hab => by subst hb; subst hab; exact h2 ha⟩
    by_cases h : Distinct sg ds
    · rw [i1 h]
      simp only [Option.bind_some]
      rw [declare_next sg ds d (by omega)]
      by_cases hm : ctCrc32 sg d.name ∈ ds.map (fun d => ctCrc32 sg d.name)
      · rw [if_pos hm]
        exact ⟨fun hh => absurd hm (hd.1 hh).2, fun _ => rfl⟩
      · rw [if_neg hm]
        exact ⟨fun _ => rfl, fun hh => absurd (hd.2 ⟨h, hm⟩) hh⟩
    · rw [i2 h]
      exact ⟨fun hh => absurd (hd.1 hh).1 h, fun _ => rfl⟩

theorem lookup_of_nodup {α β : Type} [BEq α] [LawfulBEq α] (l : List (α × β)) (hn : (l.map Prod.fst).Nodup) (a : α) (b : β)
    (h : (a, b) ∈ l) : l.lookup a = some b := by
  induction l with
  | nil => simp at h
  | cons p l ih =>
    obtain ⟨k, v⟩ := p
    rw [List.map_cons, List.nodup_cons] at hn
    rw [List.lookup_cons]
    rcases List.mem_cons.1 h with h | h
    · obtain ⟨rfl, rfl⟩ := Prod.mk.inj h; simp
    · have : a ≠ k := by
        intro e
        exact hn.1 (List.mem_map.2 ⟨(a, b), by assumption, e⟩)
      have : (a == k) = false := by simpa using this
      rw [this]
      exact ih hn.2 h

theorem module_known (sg : Bool) (ds : List Decl) (hd : Distinct sg ds) (d : Decl) (h : d ∈ ds) :
    moduleOf (stateOf sg ds) (ctCrc32 sg d.name) = (d.c, d.s) := by
  unfold moduleOf
  rw [lookup_of_nodup _ ?_ _ (d.c, d.s) ?_]
  · rfl
  · unfold Distinct at hd
    simpa [stateOf, List.map_reverse, List.nodup_reverse, Function.comp_def] using hd
  · simp only [stateOf, List.mem_reverse, List.mem_map]
    exact ⟨d, h, rfl⟩

theorem registry_known (sg : Bool) (ds : List Decl) (i : ℕ) (h : i < ds.length) :
    registryOf (stateOf sg ds) i = ctCrc32 sg ds[i].name := by
  unfold registryOf
  rw [lookup_of_nodup _ ?_ _ (ctCrc32 sg ds[i].name) ?_]
  · rfl
  · simp only [stateOf, List.map_reverse, List.nodup_reverse]
    have : (ds.mapIdx fun i d => (i, ctCrc32 sg d.name)).map Prod.fst = List.range ds.length := by
      apply List.ext_getElem
      · simp
      · intro j h1 h2; simp
    rw [this]
    exact List.nodup_range
  · simp only [stateOf, List.mem_reverse, List.mem_mapIdx]
    exact ⟨i, h, rfl⟩

/-- C141 (c): up to 256 declarations compile exactly if no two names have the same hash, and then a module's
parameters are those declared, whatever the order of the includes; a name whose hash was not declared has unknown
parameters, so that its security level is 0. -/
theorem C141_declare (sg : Bool) (ds : List Decl) (hl : ds.length ≤ 256) :
    ((compile sg ds).isSome = true ↔ (ds.map fun d => ctCrc32 sg d.name).Nodup) ∧
    ∀ u, compile sg ds = some u → (∀ d ∈ ds, secparam sg u d.name = (d.c, d.s)) ∧
      ∀ name, (∀ d ∈ ds, ctCrc32 sg d.name ≠ ctCrc32 sg name) →
        (secparam sg u name).1.makeInt = 0 ∧ (secparam sg u name).2.makeInt = 0 := by
  obtain ⟨h1, h2⟩ := compile_spec sg ds hl
  refine ⟨?_, ?_⟩
  · by_cases h : Distinct sg ds
    · rw [h1 h]; exact ⟨fun _ => h, fun _ => rfl⟩
    · rw [h2 h]; exact ⟨fun hh => by simp at hh, fun hh => absurd hh h⟩
  · intro u hu
    by_cases h : Distinct sg ds
    · rw [h1 h] at hu
      obtain rfl := Option.some.inj hu
      refine ⟨fun d hd => module_known sg ds h d hd, fun name hn => ?_⟩
      have : ((stateOf sg ds).modules.lookup (ctCrc32 sg name)) = none := by
        rw [← Option.not_isSome_iff_eq_none, modules_fresh]
        intro hm
        obtain ⟨d, hd, he⟩ := List.mem_map.1 hm
        exact hn d hd he
      simp only [secparam, moduleOf, this]
      exact ⟨rfl, rfl⟩
    · rw [h2 h] at hu; simp at hu

/-- C141, negated in one respect: an undeclared name can have the hash of a declared one, and then is taken for it.
"plumless" declared, "buckeroo" asked for. -/
theorem C141_collision_violated : ∃ ds u name, compile true ds = some u ∧ (∀ d ∈ ds, d.name ≠ name) ∧
    (secparam true u name).1 = C.k256 := by
  refine ⟨[⟨[0x70, 0x6c, 0x75, 0x6d, 0x6c, 0x65, 0x73, 0x73], .k256, .inf⟩], _,
    [0x62, 0x75, 0x63, 0x6b, 0x65, 0x72, 0x6f, 0x6f], (compile_spec true _ (by simp)).1 (by simp [Distinct]), by decide, ?_⟩
  decide +kernel

/-! ### The global parameter -/

theorem iter_bound (u : TransUnit) (g : C × S) (l : List ℕ) (x y : ℕ) :
    (x ≤ (l.foldl (iterator u) g).1.ord ↔ x ≤ g.1.ord ∧ ∀ i ∈ l, x ≤ (moduleOf u (registryOf u i)).1.ord) ∧
    (y ≤ (l.foldl (iterator u) g).2.ord ↔ y ≤ g.2.ord ∧ ∀ i ∈ l, y ≤ (moduleOf u (registryOf u i)).2.ord) := by
  induction l generalizing g with
  | nil => simp
  | cons i l ih =>
    rw [List.foldl_cons, (ih _).1, (ih _).2]
    have e : (x ≤ (iterator u g i).1.ord ↔ x ≤ g.1.ord ∧ x ≤ (moduleOf u (registryOf u i)).1.ord) ∧
        (y ≤ (iterator u g i).2.ord ↔ y ≤ g.2.ord ∧ y ≤ (moduleOf u (registryOf u i)).2.ord) := by
      unfold iterator
      generalize moduleOf u (registryOf u i) = m
      refine ⟨?_, ?_⟩ <;> dsimp only <;> split <;> omega
    rw [e.1, e.2]
    simp only [List.mem_cons, forall_eq_or_imp, and_assoc]
    trivial

theorem getGlob_bound (sg : Bool) (ds : List Decl) (hl : ds.length ≤ 255) (u : TransUnit) (hu : compile sg ds = some u)
    (g : C × S) (x y : ℕ) :
    (x ≤ (getGlob u g).1.ord ↔ x ≤ g.1.ord ∧ ∀ d ∈ ds, x ≤ d.c.ord) ∧
    (y ≤ (getGlob u g).2.ord ↔ y ≤ g.2.ord ∧ ∀ d ∈ ds, y ≤ d.s.ord) := by
  obtain ⟨h1, h2⟩ := compile_spec sg ds (by omega)
  by_cases h : Distinct sg ds
  · rw [h1 h] at hu
    obtain rfl := Option.some.inj hu
    have hr : counterRead (stateOf sg ds).crumbs = ds.length := crumbs_read ⟨ds.length, by omega⟩
    have hm : ∀ i (hi : i < ds.length),
        moduleOf (stateOf sg ds) (registryOf (stateOf sg ds) i) = (ds[i].c, ds[i].s) := by
      intro i hi
      rw [registry_known sg ds i hi, module_known sg ds h _ (List.getElem_mem hi)]
    unfold getGlob
    rw [hr, (iter_bound _ _ _ x y).1, (iter_bound _ _ _ x y).2]
    refine ⟨and_congr_right fun _ => ?_, and_congr_right fun _ => ?_⟩
    all_goals
      constructor
      · intro hh d hd
        obtain ⟨i, hi, rfl⟩ := List.getElem_of_mem hd
        have := hh i (List.mem_range.2 hi)
        rw [hm i hi] at this
        exact this
      · intro hh i hi
        have hi' := List.mem_range.1 hi
        rw [hm i hi']
        exact hh _ (List.getElem_mem hi')
  · rw [h2 h] at hu; simp at hu

/-- C141 (d), in part: the global parameter is the weakest among the modules included by the units that have asked so
far, in whatever order and however often.  Missing: modules only other units include (`C141_global_violated`), more
than 255 modules (`C141_counter_violated`), units the linker has mixed up (`C141_folded_violated`). -/
theorem C141_global_partial (sg : Bool) (prog : List (List Decl × TransUnit))
    (hp : ∀ p ∈ prog, p.1.length ≤ 255 ∧ compile sg p.1 = some p.2) (x y : ℕ) :
    (x ≤ (run (prog.map Prod.snd)).1.ord ↔ x ≤ C.inf.ord ∧ ∀ p ∈ prog, ∀ d ∈ p.1, x ≤ d.c.ord) ∧
    (y ≤ (run (prog.map Prod.snd)).2.ord ↔ y ≤ S.inf.ord ∧ ∀ p ∈ prog, ∀ d ∈ p.1, y ≤ d.s.ord) := by
  unfold run
  have gen : ∀ g : C × S,
      (x ≤ ((prog.map Prod.snd).foldl (fun g u => getGlob u g) g).1.ord ↔
        x ≤ g.1.ord ∧ ∀ p ∈ prog, ∀ d ∈ p.1, x ≤ d.c.ord) ∧
      (y ≤ ((prog.map Prod.snd).foldl (fun g u => getGlob u g) g).2.ord ↔
        y ≤ g.2.ord ∧ ∀ p ∈ prog, ∀ d ∈ p.1, y ≤ d.s.ord) := by
    induction prog with
    | nil => simp
    | cons p prog ih =>
      intro g
      obtain ⟨hl, hc⟩ := hp p (by simp)
      have ih' := ih (fun q hq => hp q (List.mem_cons_of_mem _ hq)) (getGlob p.2 g)
      have hb := getGlob_bound sg p.1 hl p.2 hc g x y
      rw [List.map_cons, List.foldl_cons, ih'.1, ih'.2, hb.1, hb.2]
      simp only [List.mem_cons, forall_eq_or_imp, and_assoc]
      trivial
  exact gen glob0

/-- C141 (e), in part: the enforcement passes exactly if every module included by this unit, and by the units that
asked before, is at least as strong as required. -/
theorem C141_enforce_partial (sg : Bool) (prog : List (List Decl × TransUnit)) (ds : List Decl) (u : TransUnit)
    (hp : ∀ p ∈ prog, p.1.length ≤ 255 ∧ compile sg p.1 = some p.2) (hl : ds.length ≤ 255) (hu : compile sg ds = some u)
    (c : C) (s : S) :
    (enforce u c s (run (prog.map Prod.snd))).1 = true ↔
      (∀ d ∈ ds, c.ord ≤ d.c.ord ∧ s.ord ≤ d.s.ord) ∧
      ∀ p ∈ prog, ∀ d ∈ p.1, c.ord ≤ d.c.ord ∧ s.ord ≤ d.s.ord := by
  have hg := C141_global_partial sg prog hp c.ord s.ord
  generalize run (prog.map Prod.snd) = g at hg ⊢
  have b1 := getGlob_bound sg ds hl u hu g c.ord s.ord
  have b2 := getGlob_bound sg ds hl u hu (getGlob u g) c.ord s.ord
  have hc : c.ord ≤ C.inf.ord := by cases c <;> decide
  have hs : s.ord ≤ S.inf.ord := by cases s <;> decide
  have key : (enforce u c s g).1 = true ↔ c.ord ≤ (getGlob u g).1.ord ∧ s.ord ≤ (getGlob u g).2.ord := by
    unfold enforce
    simp only [ge_iff_le]
    split
    · rename_i h
      simp only [decide_eq_true_eq, h, true_and]
      rw [b2.2, b1.2]
      exact ⟨fun h => h.1, fun h => ⟨h, h.2⟩⟩
    · rename_i h
      simp [h]
  rw [key, b1.1, b1.2, hg.1, hg.2]
  constructor
  · rintro ⟨⟨⟨-, h1⟩, h2⟩, ⟨-, h3⟩, h4⟩
    exact ⟨fun d hd => ⟨h2 d hd, h4 d hd⟩, fun p hp d hd => ⟨h1 p hp d hd, h3 p hp d hd⟩⟩
  · rintro ⟨h1, h2⟩
    exact ⟨⟨⟨hc, fun p hp d hd => (h2 p hp d hd).1⟩, fun d hd => (h1 d hd).1⟩,
      ⟨hs, fun p hp d hd => (h2 p hp d hd).2⟩, fun d hd => (h1 d hd).2⟩

/-- C141 (f): the numbers shown for parameters are in the order of the parameters, 0 for an unknown one. -/
theorem C141_int : (∀ c c' : C, c.makeInt ≤ c'.makeInt ↔ c.ord ≤ c'.ord) ∧
    (∀ s s' : S, s.makeInt ≤ s'.makeInt ↔ s.ord ≤ s'.ord) ∧ C.unknown.makeInt = 0 ∧ S.unknown.makeInt = 0 ∧
    C.k128.makeInt = 128 ∧ S.k40.makeInt = 40 := by
  refine ⟨?_, ?_, rfl, rfl, rfl, rfl⟩
  · intro c c'; cases c <;> cases c' <;> decide
  · intro s s'; cases s <;> cases s' <;> decide

/-- The modules of secparam_test.cc. -/
def testDecls : List Decl :=
  [⟨[0x69, 0x6b, 0x6e, 0x70, 0x5f, 0x6f, 0x74, 0x65], .k128, .k40⟩, ⟨[0x61, 0x65, 0x73], .k128, .inf⟩,
    ⟨[0x68, 0x61, 0x73, 0x68], .k192, .inf⟩]

/-- The hypotheses hold for the modules of secparam_test.cc, with its four enforcements and the one that fails. -/
example : ∃ u, compile true testDecls = some u ∧ (enforce u .k128 .k40 glob0).1 = true ∧
    (enforce u .k112 .k30 glob0).1 = true ∧ (enforce u .inf .inf glob0).1 = false := by
  have hu : compile true testDecls = some (stateOf true testDecls) :=
    (compile_spec true testDecls (by decide)).1 (by unfold Distinct; decide +kernel)
  refine ⟨_, hu, ?_, ?_, ?_⟩
  · exact (C141_enforce_partial true [] testDecls _ (by simp) (by decide) hu .k128 .k40).2 (by decide)
  · exact (C141_enforce_partial true [] testDecls _ (by simp) (by decide) hu .k112 .k30).2 (by decide)
  · rw [Bool.eq_false_iff]
    exact fun h => absurd ((C141_enforce_partial true [] testDecls _ (by simp) (by decide) hu .inf .inf).1 h) (by decide)

/-- A unit with one module. -/
def single (b : BitVec 8) (c : C) : List Decl := [⟨[b], c, .inf⟩]

theorem compile_single (b : BitVec 8) (c : C) : compile true (single b c) = some (stateOf true (single b c)) :=
  (compile_spec true _ (by simp [single])).1 (by simp [Distinct, single])

/-- C141, negated: the enforcement passes in one unit although another unit of the program includes a weaker module;
after that other unit has asked, the same enforcement in the same unit fails. -/
theorem C141_global_violated : ∃ strong weak us uw, compile true strong = some us ∧ compile true weak = some uw ∧
    (∃ d ∈ weak, d.c.ord < C.k128.ord) ∧ (enforce us .k128 .k40 (run [])).1 = true ∧
    (enforce us .k128 .k40 (run [uw])).1 = false := by
  refine ⟨single 97 .k128, single 98 .k112, _, _, compile_single _ _, compile_single _ _, by decide, ?_, ?_⟩
  · exact (C141_enforce_partial true [] (single 97 .k128) _ (by simp) (by decide) (compile_single _ _) .k128 .k40).2
      (by decide)
  · rw [Bool.eq_false_iff]
    intro h
    have := (C141_enforce_partial true [(single 98 .k112, _)] (single 97 .k128) _
      (by intro p hp; rw [List.mem_singleton] at hp; subst hp; exact ⟨by decide, compile_single _ _⟩) (by decide)
      (compile_single _ _) .k128 .k40).1 h
    exact absurd (this.2 _ (List.mem_singleton_self _) _ (List.mem_singleton_self _)).1 (by decide)

/-- C141, negated: where two units number their modules differently, the linker keeps one of the two functions that
look at module 0, and a unit with a weak module is told the parameter of the other unit's module. -/
theorem C141_folded_violated : ∃ strong weak us uw, compile true strong = some us ∧ compile true weak = some uw ∧
    (∃ d ∈ weak, d.c.ord < C.k128.ord) ∧ (getGlob uw glob0).1 = C.k112 ∧ (getGlobFolded (fun _ => us) uw glob0).1 = C.k128 := by
  refine ⟨single 97 .k128, single 98 .k112, _, _, compile_single _ _, compile_single _ _, by decide, ?_, ?_⟩ <;>
    decide +kernel

theorem compile_257 (sg : Bool) (ds : List Decl) (d : Decl) (hl : ds.length = 256) : compile sg (ds ++ [d]) = none := by
  obtain ⟨h1, h2⟩ := compile_spec sg ds (by omega)
  rw [compile_concat]
  by_cases h : Distinct sg ds
  · rw [h1 h]
    have h3 : counterRead (stateOf sg ds).crumbs = 255 := by
      show counterRead (crumbsAt ds.length) = 255
      rw [hl]; exact crumbs_read_256
    have h4 := (registry_fresh sg ds 255).2 (by omega)
    simp only [Option.bind_some, declare, h3, h4, if_true]
    split <;> rfl
  · rw [h2 h]; rfl

/-- C141 (g): more than 256 modules in a unit do not compile. -/
theorem C141_limit (sg : Bool) (ds : List Decl) (hl : 256 < ds.length) : compile sg ds = none := by
  have h := compile_257 sg (ds.take 256) (ds[256]) (by simp; omega)
  have e : ds = (ds.take 256 ++ [ds[256]]) ++ ds.drop 257 := by
    rw [List.take_append_getElem, List.take_append_drop]
  have : compile sg ((ds.take 256 ++ [ds[256]]) ++ ds.drop 257) = none := by
    unfold compile at h ⊢
    rw [List.foldlM_append, h]
    rfl
  rw [e]; exact this

/-- C141, negated: exactly 256 modules compile, and the last one does not count. -/
theorem C141_counter_violated : ∃ ds u, ds.length = 256 ∧ compile true ds = some u ∧
    (∃ d ∈ ds, d.c.ord < C.k128.ord) ∧ (enforce u .k128 .k40 glob0).1 = true := by
  obtain ⟨ds, hds⟩ : ∃ ds : List Decl, ds = (List.range 256).map fun i =>
    ⟨[BitVec.ofNat 8 i], if i = 255 then .k112 else .k128, .inf⟩ := ⟨_, rfl⟩
  have hlen : ds.length = 256 := by rw [hds, List.length_map, List.length_range]
  have hd : Distinct true ds := by
    unfold Distinct
    rw [hds, List.map_map, List.nodup_map_iff_inj_on List.nodup_range]
    intro i hi j hj h
    by_contra hne
    have hi' := List.mem_range.1 hi
    have hj' := List.mem_range.1 hj
    refine C141_names true [] [BitVec.ofNat 8 i] [BitVec.ofNat 8 j] [] rfl (by simp) ?_ h
    intro he
    have := congrArg BitVec.toNat (List.cons.inj he).1
    simp only [BitVec.toNat_ofNat] at this
    omega
  have hu := (compile_spec true ds (by omega)).1 hd
  refine ⟨ds, _, hlen, hu, ⟨⟨[BitVec.ofNat 8 255], .k112, .inf⟩, by rw [hds]; exact List.mem_map.2 ⟨255, by simp, rfl⟩, by decide⟩, ?_⟩
  have hm : ∀ i, i < 255 → moduleOf (stateOf true ds) (registryOf (stateOf true ds) i) = (.k128, .inf) := by
    intro i hi
    rw [registry_known true ds i (by omega), module_known true ds hd _ (List.getElem_mem (by omega))]
    have h255 : i ≠ 255 := by omega
    have e : ds[i]'(by omega) = ⟨[BitVec.ofNat 8 i], if i = 255 then .k112 else .k128, .inf⟩ := by
      simp only [hds, List.getElem_map, List.getElem_range]
    rw [e, if_neg h255]
  have hr : counterRead (stateOf true ds).crumbs = 255 := by
    change counterRead (crumbsAt ds.length) = 255
    rw [hlen]; exact crumbs_read_256
  have hb : ∀ g : C × S, 2 ≤ g.1.ord → 2 ≤ g.2.ord →
      2 ≤ (getGlob (stateOf true ds) g).1.ord ∧ 2 ≤ (getGlob (stateOf true ds) g).2.ord := by
    intro g h1 h2
    unfold getGlob
    rw [hr, (iter_bound _ g _ 2 2).1, (iter_bound _ g _ 2 2).2]
    refine ⟨⟨h1, ?_⟩, h2, ?_⟩ <;>
    · intro i hi
      rw [hm i (List.mem_range.1 hi)]
      decide
  obtain ⟨a1, a2⟩ := hb glob0 (by decide) (by decide)
  obtain ⟨b1, b2⟩ := hb _ a1 a2
  unfold enforce
  simp only [ge_iff_le]
  rw [if_pos (show C.k128.ord ≤ _ from a1)]
  exact decide_eq_true b2

end Yacl.SecParam
