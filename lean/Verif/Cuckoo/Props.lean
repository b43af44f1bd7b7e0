import Verif.Cuckoo.Model
import Mathlib.Data.List.Basic
import Mathlib.Data.List.Sort
import Mathlib.Data.List.Perm.Basic
import Mathlib.Tactic.ByContra

/-! Property theorem C21: the cuckoo index places every item exactly once. -/
namespace Yacl.Cuckoo

/-! ### Bit layout -/

theorem inputIdx_eq (e : Nat) : inputIdx e = e % 2 ^ 56 := by
  unfold inputIdx; exact Nat.and_two_pow_sub_one_eq_mod e 56

theorem hashIdx_eq (e : Nat) : hashIdx e = e / 2 ^ 56 % 256 := by
  unfold hashIdx; rw [Nat.shiftRight_eq_div_pow]

theorem encode_eq {i h : Nat} (hi : i < 2 ^ 56) : encode i h = h % 256 * 2 ^ 56 + i := by
  unfold encode
  rw [Nat.or_comm, ← Nat.shiftLeft_add_eq_or_of_lt hi, Nat.shiftLeft_eq]

/-- Hash indexes in use: below the number of hash functions, or 0 (fresh items start with hash 0 in any case). -/
def Options.H (o : Options) : Nat := max 1 o.numHash

/-- Candidates and occupied bins: a valid item index with a hash index below `H`. -/
structure Good (H n : Nat) (e : Nat) : Prop where
  input : inputIdx e < n
  hash : hashIdx e < H
  small : e < 2 ^ 64

theorem good_not_empty {H n e : Nat} (hH : H ≤ 5) (h : Good H n e) : isEmpty e = false := by
  have := h.hash
  rw [hashIdx_eq] at this
  unfold isEmpty
  rw [beq_eq_false_iff_ne]
  rintro rfl
  have hk : kEmpty / 2 ^ 56 % 256 = 255 := by decide
  omega

theorem good_encode {H n i h : Nat} (hn : n ≤ 2 ^ 56) (hi : i < n) (hH : H ≤ 5) (hh : h < H) :
    Good H n (encode i h) ∧ inputIdx (encode i h) = i ∧ hashIdx (encode i h) = h := by
  have e := encode_eq (i := i) (h := h) (by omega)
  rw [Nat.mod_eq_of_lt (show h < 256 by omega)] at e
  have e1 : inputIdx (encode i h) = i := by rw [inputIdx_eq, e]; omega
  have e2 : hashIdx (encode i h) = h := by rw [hashIdx_eq, e]; omega
  exact ⟨⟨by omega, by omega, by rw [e]; omega⟩, e1, e2⟩

theorem good_fresh {H n i : Nat} (hn : n ≤ 2 ^ 56) (hi : i < n) (hH : 0 < H) : Good H n i ∧ inputIdx i = i ∧ hashIdx i = 0 := by
  have e1 : inputIdx i = i := by rw [inputIdx_eq]; omega
  have e2 : hashIdx i = 0 := by rw [hashIdx_eq]; omega
  exact ⟨⟨by omega, by omega, by omega⟩, e1, e2⟩

/-! ### Contents -/

/-- The items recorded in a list of bins. -/
def items (l : List Nat) : List Nat := (l.filter (fun e => ! isEmpty e)).map inputIdx

theorem items_append (a b : List Nat) : items (a ++ b) = items a ++ items b := by simp [items]

theorem items_replicate (k : Nat) : items (List.replicate k kEmpty) = [] := by
  simp [items, isEmpty]

theorem items_set {bins : List Nat} {b old c n H : Nat} (hH : H ≤ 5) (hb : bins[b]? = some old) (hc : Good H n c) :
    (items (bins.set b c)).Perm (inputIdx c :: items (bins.eraseIdx b)) ∧
    (items bins).Perm ((if isEmpty old then [] else [inputIdx old]) ++ items (bins.eraseIdx b)) := by
  induction bins generalizing b with
  | nil => simp at hb
  | cons x xs ih =>
    cases b with
    | zero =>
      simp at hb; subst hb
      constructor
      · simp [items, good_not_empty hH hc]
      · by_cases he : isEmpty x = true <;> simp [items, he]
    | succ b =>
      simp at hb
      obtain ⟨h1, h2⟩ := ih hb
      simp only [List.set_cons_succ, List.eraseIdx_cons_succ]
      have hx : ∀ l : List Nat, items (x :: l) = (if isEmpty x then [] else [inputIdx x]) ++ items l := by
        intro l; by_cases he : isEmpty x = true <;> simp [items, he]
      rw [hx, hx, hx]
      constructor
      · refine (List.Perm.append_left _ h1).trans ?_
        exact List.perm_middle
      · refine (List.Perm.append_left _ h2).trans ?_
        rw [← List.append_assoc, ← List.append_assoc]
        exact List.Perm.append_right _ List.perm_append_comm

/-- Bins are empty, or hold a good entry at one of its item's positions. -/
def BinsOK (o : Options) (hashes : List Nat) (bins : List Nat) : Prop :=
  bins.length = o.numBins ∧ ∀ (b e : Nat), bins[b]? = some e → isEmpty e = false →
    Good o.H hashes.length e ∧ ∃ code, hashes[inputIdx e]? = some code ∧ getHash code (hashIdx e) % o.numBins = b

theorem BinsOK.mono {o : Options} {hs bins : List Nat} (cs : List Nat) (h : BinsOK o hs bins) : BinsOK o (hs ++ cs) bins := by
  refine ⟨h.1, ?_⟩
  intro b e hb he
  obtain ⟨g, code, h1, h2⟩ := h.2 b e hb he
  refine ⟨⟨by simp; have := g.input; omega, g.hash, g.small⟩, code, ?_, h2⟩
  rw [List.getElem?_append_left g.input]; exact h1

theorem pass_inv {o : Options} {hashes : List Nat} (hn : hashes.length ≤ 2 ^ 56) (hh : o.numHash ≤ 5) :
    ∀ (cs bins bins' rest : List Nat), pass o hashes bins cs = .ok (bins', rest) → BinsOK o hashes bins →
    (∀ c ∈ cs, Good o.H hashes.length c) → BinsOK o hashes bins' ∧ (∀ c ∈ rest, Good o.H hashes.length c) ∧
    (items bins' ++ rest.map inputIdx).Perm (items bins ++ cs.map inputIdx) := by
  intro cs
  induction cs with
  | nil => intro bins bins' rest h hb _; simp [pass] at h; obtain ⟨rfl, rfl⟩ := h; exact ⟨hb, by simp, by simp⟩
  | cons c cs ih =>
    intro bins bins' rest h hb hc
    have gc := hc c (by simp)
    simp only [pass] at h
    cases hbin : binOf o hashes c with
    | error e => rw [hbin] at h; simp at h
    | ok b =>
      rw [hbin] at h
      simp only at h
      cases hold : bins[b]? with
      | none => rw [hold] at h; simp at h
      | some old =>
        rw [hold] at h
        simp only at h
        -- the new bins are fine
        have hset : BinsOK o hashes (bins.set b c) := by
          refine ⟨by simp [hb.1], ?_⟩
          intro b' e' he' hne
          by_cases hbb : b' = b
          · subst hbb
            have hlt := (List.getElem?_eq_some_iff.1 hold).1
            rw [List.getElem?_set_self hlt] at he'
            simp at he'; subst he'
            refine ⟨gc, ?_⟩
            unfold binOf at hbin
            split at hbin
            · simp at hbin
            · rename_i code hcode
              split at hbin
              · simp at hbin
              · simp at hbin; exact ⟨code, hcode, hbin⟩
          · rw [List.getElem?_set_ne (Ne.symm hbb)] at he'
            exact hb.2 b' e' he' hne
        obtain ⟨p1, p2⟩ := items_set (H := o.H) (by unfold Options.H; omega) hold gc
        by_cases hemp : isEmpty old = true
        · rw [if_pos hemp] at h p2
          obtain ⟨r1, r2, r3⟩ := ih _ _ _ h hset (fun c hc' => hc c (by simp [hc']))
          refine ⟨r1, r2, r3.trans ?_⟩
          rw [List.map_cons]
          refine (List.Perm.append_right _ p1).trans ?_
          refine List.Perm.trans ?_ (List.Perm.append_right _ p2.symm)
          simp only [List.nil_append, List.cons_append]
          exact List.perm_middle.symm
        · rw [if_neg hemp] at h p2
          cases hnx : nextCandid o old with
          | error e => rw [hnx] at h; simp at h
          | ok n =>
            rw [hnx] at h
            simp only at h
            cases hp : pass o hashes (bins.set b c) cs with
            | error e => rw [hp] at h; simp at h
            | ok q =>
              obtain ⟨b2, r⟩ := q
              rw [hp] at h
              simp at h
              obtain ⟨rfl, rfl⟩ := h
              obtain ⟨r1, r2, r3⟩ := ih _ _ _ hp hset (fun c hc' => hc c (by simp [hc']))
              have hold' := hb.2 b old hold (by simpa using hemp)
              have hn' : Good o.H hashes.length n ∧ inputIdx n = inputIdx old := by
                unfold nextCandid at hnx
                split at hnx
                · simp at hnx
                · rename_i hz
                  simp at hnx; subst hnx
                  have hlt : (hashIdx old + 1) % o.numHash < o.numHash := Nat.mod_lt _ (by omega)
                  have := good_encode (H := o.H) (h := (hashIdx old + 1) % o.numHash) hn hold'.1.input (by unfold Options.H; omega) (by unfold Options.H; omega)
                  exact ⟨this.1, this.2.1⟩
              refine ⟨r1, ?_, ?_⟩
              · intro x hx
                rcases List.mem_cons.1 hx with rfl | hx
                · exact hn'.1
                · exact r2 x hx
              · simp only [List.map_cons, hn'.2]
                refine List.perm_middle.trans ?_
                refine (List.Perm.cons _ r3).trans ?_
                refine (List.Perm.cons _ (List.Perm.append_right _ p1)).trans ?_
                refine List.Perm.trans ?_ (List.Perm.append_right _ p2.symm)
                simp only [List.cons_append, List.nil_append]
                refine List.Perm.cons _ ?_
                exact List.perm_middle.symm

theorem passes_inv {o : Options} {hashes : List Nat} (hn : hashes.length ≤ 2 ^ 56) (hh : o.numHash ≤ 5) :
    ∀ (k : Nat) (bins cs bins' rest : List Nat), passes o hashes k bins cs = .ok (bins', rest) → BinsOK o hashes bins →
    (∀ c ∈ cs, Good o.H hashes.length c) → BinsOK o hashes bins' ∧ (∀ c ∈ rest, Good o.H hashes.length c) ∧
    (items bins' ++ rest.map inputIdx).Perm (items bins ++ cs.map inputIdx) := by
  intro k
  induction k with
  | zero => intro bins cs bins' rest h hb hc; simp [passes] at h; obtain ⟨rfl, rfl⟩ := h; exact ⟨hb, hc, List.Perm.refl _⟩
  | succ k ih =>
    intro bins cs bins' rest h hb hc
    simp only [passes] at h
    split at h
    · rename_i he; subst he; simp at h; obtain ⟨rfl, rfl⟩ := h; exact ⟨hb, by simp, by simp⟩
    · cases hp : pass o hashes bins cs with
      | error e => rw [hp] at h; simp at h
      | ok q =>
        obtain ⟨b2, c2⟩ := q
        rw [hp] at h
        simp only at h
        obtain ⟨r1, r2, r3⟩ := pass_inv hn hh _ _ _ _ hp hb hc
        obtain ⟨s1, s2, s3⟩ := ih _ _ _ _ h r1 r2
        exact ⟨s1, s2, s3.trans r3⟩

theorem putToStash_inv : ∀ (s : List Nat) (i : Nat) (s' : List Nat), i < 2 ^ 56 → putToStash s i = .ok s' →
    s'.length = s.length ∧ (items s').Perm (i :: items s) := by
  intro s
  induction s with
  | nil => intro i s' _ h; simp [putToStash] at h
  | cons x xs ih =>
    intro i s' hi h
    simp only [putToStash] at h
    split at h
    · rename_i he
      simp at h; subst h
      have g := good_fresh (H := 1) (n := 2 ^ 56) (Nat.le_refl _) hi (by omega)
      simp [items, he, good_not_empty (by omega) g.1, g.2.1]
    · rename_i he
      cases hp : putToStash xs i with
      | error e => rw [hp] at h; simp at h
      | ok xs' =>
        rw [hp] at h; simp at h; subst h
        obtain ⟨h1, h2⟩ := ih i xs' hi hp
        refine ⟨by simp [h1], ?_⟩
        have e : ∀ l, items (x :: l) = inputIdx x :: items l := by
          intro l; simp only [Bool.not_eq_true] at he; simp [items, he]
        rw [e, e]
        exact (List.Perm.cons _ h2).trans (List.Perm.swap _ _ _)

theorem stashAll_inv {H n : Nat} (hn : n ≤ 2 ^ 56) : ∀ (cs s s' : List Nat), (∀ c ∈ cs, Good H n c) → stashAll s cs = .ok s' →
    s'.length = s.length ∧ (items s').Perm (items s ++ cs.map inputIdx) := by
  intro cs
  induction cs with
  | nil => intro s s' _ h; simp [stashAll] at h; subst h; simp
  | cons c cs ih =>
    intro s s' hc h
    simp only [stashAll] at h
    cases hp : putToStash s (inputIdx c) with
    | error e => rw [hp] at h; simp at h
    | ok s1 =>
      rw [hp] at h; simp only at h
      have gc := (hc c (by simp)).input
      obtain ⟨a1, a2⟩ := putToStash_inv s _ s1 (by omega) hp
      obtain ⟨b1, b2⟩ := ih s1 s' (fun c hc' => hc c (by simp [hc'])) h
      refine ⟨by omega, b2.trans ?_⟩
      refine (List.Perm.append_right _ a2).trans ?_
      simp only [List.map_cons, List.cons_append]
      exact List.perm_middle.symm

/-- Invariant between `Insert` calls. -/
structure Inv (o : Options) (st : Index) : Prop where
  bins : BinsOK o st.hashes st.bins
  stash : st.stash.length = o.numStash
  cap : st.hashes.length ≤ o.numInput
  placed : (items st.bins ++ items st.stash).Perm (List.range st.hashes.length)

theorem insert_inv {o : Options} {st st' : Index} {codes : List Nat} (hin : o.numInput ≤ 2 ^ 56) (hh : o.numHash ≤ 5)
    (hi : Inv o st) (h : insert o st codes = .ok st') : Inv o st' ∧ st'.hashes = st.hashes ++ codes := by
  unfold insert at h
  split at h
  · rename_i hcap
    have hn : (st.hashes ++ codes).length ≤ 2 ^ 56 := by omega
    split at h
    · simp at h
    · rename_i bins rest hp
      split at h
      · simp at h
      · rename_i stash hs
        simp at h; subst h
        have hnew : ∀ c ∈ (List.range codes.length).map (st.hashes.length + ·), Good o.H (st.hashes ++ codes).length c ∧ inputIdx c = c := by
          intro c hc
          obtain ⟨i, hi, rfl⟩ := List.mem_map.1 hc
          have hi := List.mem_range.1 hi
          have g := good_fresh (H := o.H) (n := (st.hashes ++ codes).length) (i := st.hashes.length + i) hn (by simp; omega) (by unfold Options.H; omega)
          exact ⟨g.1, g.2.1⟩
        obtain ⟨a1, a2, a3⟩ := passes_inv hn hh _ _ _ _ _ hp (hi.bins.mono codes) (fun c hc => (hnew c hc).1)
        obtain ⟨b1, b2⟩ := stashAll_inv hn rest st.stash stash a2 hs
        refine ⟨⟨a1, by rw [b1, hi.stash], hcap, ?_⟩, rfl⟩
        have e : ((List.range codes.length).map (st.hashes.length + ·)).map inputIdx =
            (List.range codes.length).map (st.hashes.length + ·) := by
          conv_rhs => rw [← List.map_id ((List.range codes.length).map (st.hashes.length + ·))]
          apply List.map_congr_left
          intro c hc; simp [(hnew c hc).2]
        rw [e] at a3
        refine (List.Perm.append_left _ b2).trans ?_
        refine (List.Perm.append_left _ List.perm_append_comm).trans ?_
        rw [← List.append_assoc]
        refine (List.Perm.append_right _ a3).trans ?_
        rw [List.append_assoc]
        refine (List.Perm.append_left _ List.perm_append_comm).trans ?_
        rw [← List.append_assoc]
        refine (List.Perm.append_right _ hi.placed).trans ?_
        rw [List.length_append, List.range_add]
  · simp at h

theorem inserts_inv {o : Options} (hin : o.numInput ≤ 2 ^ 56) (hh : o.numHash ≤ 5) :
    ∀ (css : List (List Nat)) (st st' : Index), Inv o st → inserts o st css = .ok st' →
    Inv o st' ∧ st'.hashes = st.hashes ++ css.flatten := by
  intro css
  induction css with
  | nil => intro st st' hi h; simp [inserts] at h; subst h; exact ⟨hi, by simp⟩
  | cons cs css ih =>
    intro st st' hi h
    simp only [inserts] at h
    cases hp : insert o st cs with
    | error e => rw [hp] at h; simp at h
    | ok s1 =>
      rw [hp] at h; simp only at h
      obtain ⟨h1, h2⟩ := insert_inv hin hh hi hp
      obtain ⟨h3, h4⟩ := ih s1 st' h1 h
      exact ⟨h3, by rw [h4, h2]; simp⟩

theorem new_inv {o : Options} {st : Index} (h : new o = .ok st) : Inv o st ∧ st.hashes = [] ∧ (o.numHash < 2 ^ 62 → o.numHash ≤ 5) := by
  unfold new at h
  split at h
  · rename_i hcond
    simp at h; subst h
    refine ⟨⟨⟨by simp, ?_⟩, by simp, by simp, by simp [items_replicate]⟩, rfl, ?_⟩
    · intro b e hb he
      have := List.mem_of_getElem? hb
      rw [List.mem_replicate] at this
      rw [this.2] at he; simp [isEmpty] at he
    · intro hlt; omega
  · simp at h

/-- Hash function `h` of an item with the 128-bit code `code`: 64 bits of it, from bit `16 h` on. -/
def hashOf (code h : Nat) : Nat := code / 2 ^ (16 * h) % 2 ^ 64

theorem getHash_eq (code h : Nat) : getHash code h = hashOf code h := by
  unfold getHash hashOf
  rw [Nat.shiftRight_eq_div_pow]

/-- **C21.** If the index was constructed and every `Insert` returned normally then, counting bins and stash together, every
inserted item (numbered in insertion order) is stored exactly once and nothing else is stored; an item in a bin sits at the
position given by the hash function recorded with it; and `SanityCheck` passes as soon as all announced inputs are there. -/
theorem C21_every_item_placed_once (o : Options) (css : List (List Nat)) (st0 st : Index) (hnew : new o = .ok st0)
    (hin : o.numInput ≤ 2 ^ 56) (hnh : o.numHash < 2 ^ 62) (hok : inserts o st0 css = .ok st) :
    (∀ i, (((st.bins ++ st.stash).filter (fun e => ! isEmpty e)).map inputIdx).count i =
      if i < css.flatten.length then 1 else 0) ∧
    (∀ (b e : Nat), st.bins[b]? = some e → e ≠ kEmpty →
      ∃ code, css.flatten[inputIdx e]? = some code ∧ hashOf code (hashIdx e) % o.numBins = b) ∧
    (css.flatten.length = o.numInput → sanityCheck o st = true) := by
  simp only [← getHash_eq]
  obtain ⟨i0, h0, hh⟩ := new_inv hnew
  obtain ⟨hi, hs⟩ := inserts_inv hin (hh hnh) css st0 st i0 hok
  rw [h0, List.nil_append] at hs
  have hp : (((st.bins ++ st.stash).filter (fun e => ! isEmpty e)).map inputIdx).Perm (List.range css.flatten.length) := by
    have := hi.placed
    rw [hs, ← items_append] at this
    exact this
  refine ⟨?_, ?_, ?_⟩
  · intro i
    rw [hp.count_eq]
    by_cases hlt : i < css.flatten.length
    · rw [if_pos hlt]; exact List.count_eq_one_of_mem List.nodup_range (List.mem_range.2 hlt)
    · rw [if_neg hlt]; exact List.count_eq_zero.2 (fun h => hlt (List.mem_range.1 h))
  · intro b e hb he
    obtain ⟨_, code, h1, h2⟩ := hi.bins.2 b e hb (by unfold isEmpty; rw [beq_eq_false_iff_ne]; exact he)
    rw [hs] at h1
    exact ⟨code, h1, h2⟩
  · intro hlen
    rw [hlen] at hp
    unfold sanityCheck
    simp only [Bool.and_eq_true, decide_eq_true_eq, beq_iff_eq]
    refine ⟨⟨hp.nodup_iff.2 List.nodup_range, by rw [hp.length_eq, List.length_range]⟩, ?_⟩
    apply List.Perm.eq_of_pairwise (le := fun a b => decide (a ≤ b) = true)
    · intro a b _ _ h1 h2; simp at h1 h2; omega
    · exact List.pairwise_mergeSort (by intro a b c; simp; omega) (by intro a b; simp; omega) _
    · exact List.pairwise_lt_range.imp (by intro a b h; simp; omega)
    · exact (List.mergeSort_perm _ _).trans hp

theorem minLoop_spec {o : Options} {code target h : Nat} : ∀ (left i : Nat), i ≤ h → h < i + left → i + left ≤ 256 →
    getHash code h % o.numBins = target → ∃ m, minLoop o code target left i = m ∧ i ≤ m ∧ m ≤ h ∧ getHash code m % o.numBins = target ∧
    ∀ k, i ≤ k → k < m → getHash code k % o.numBins ≠ target := by
  intro left
  induction left with
  | zero => intro i h1 h2; omega
  | succ left ih =>
    intro i h1 h2 h3 h4
    unfold minLoop
    by_cases hc : getHash code i % o.numBins = target
    · rw [if_pos hc, Nat.mod_eq_of_lt (by omega)]
      exact ⟨i, rfl, by omega, h1, hc, by intro k _ _; omega⟩
    · rw [if_neg hc]
      have hne : i ≠ h := by rintro rfl; exact hc h4
      obtain ⟨m, e, a, b, c, d⟩ := ih (i + 1) (by omega) (by omega) (by omega) h4
      refine ⟨m, e, by omega, b, c, ?_⟩
      intro k hk1 hk2
      rcases Nat.eq_or_lt_of_le hk1 with rfl | hlt
      · exact hc
      · exact d k hlt hk2

/-- **C66.** For an occupied bin, `MinCollidingHashIdx` returns the least hash-function number that maps the stored item to
that bin (when the index has at least one hash function). -/
theorem C66_min_colliding_hash (o : Options) (css : List (List Nat)) (st0 st : Index) (hnew : new o = .ok st0)
    (hin : o.numInput ≤ 2 ^ 56) (hnh : 0 < o.numHash ∧ o.numHash < 2 ^ 62) (hok : inserts o st0 css = .ok st)
    (b e : Nat) (hb : st.bins[b]? = some e) (he : e ≠ kEmpty) :
    ∃ m code, minCollidingHashIdx o st b = .ok m ∧ css.flatten[inputIdx e]? = some code ∧
      hashOf code m % o.numBins = b ∧ m < o.numHash ∧ ∀ k < m, hashOf code k % o.numBins ≠ b := by
  simp only [← getHash_eq]
  obtain ⟨i0, h0, hh⟩ := new_inv hnew
  have h5 := hh hnh.2
  obtain ⟨hi, hs⟩ := inserts_inv hin h5 css st0 st i0 hok
  rw [h0, List.nil_append] at hs
  obtain ⟨g, code, h1, h2⟩ := hi.bins.2 b e hb (by unfold isEmpty; rw [beq_eq_false_iff_ne]; exact he)
  have hH := g.hash
  unfold Options.H at hH
  obtain ⟨m, e1, _, e3, e4, e5⟩ := minLoop_spec (o := o) (code := code) (target := b) (h := hashIdx e) o.numHash 0 (by omega) (by omega) (by omega) h2
  refine ⟨m, code, ?_, by rw [← hs]; exact h1, e4, by omega, fun k hk => e5 k (by omega) hk⟩
  simp only [minCollidingHashIdx, hb, h1, e1]

/-- Non-vacuity of C21/C66: four items in 6 bins with 3 hash functions and a stash of two, inserted in two batches; items
collide and are evicted (items 0, 1 and 3 have equal codes: they have only two distinct positions). -/
def demo : Options := { numInput := 4, numStash := 2, numHash := 3, numBins := 6 }

/-- The demo run, step by step. -/
def demoRun : Except Err Index :=
  match new demo with
  | .error e => .error e
  | .ok st0 => inserts demo st0 [[7, 7, 5], [7]]

example : demoRun.toOption.elim false (fun st => (items st.bins).length == 3 && st.stash.any (fun e => !isEmpty e)) = true := by
  decide +kernel

/-- Finding: `num_hash = 0` passes the constructor's check (unsigned wrap) and the first collision is a modulo by zero. -/
theorem C21_zero_hash_functions_ub : ∃ st0, new { numInput := 2, numStash := 0, numHash := 0, numBins := 1 } = .ok st0 ∧
    inserts { numInput := 2, numStash := 0, numHash := 0, numBins := 1 } st0 [[1, 2]] = .error .ub := by
  refine ⟨_, rfl, ?_⟩
  decide +kernel

/-- Finding: with no bins at all (for example `num_input * scale_factor < 1` and a stash) `Insert` is a modulo by zero. -/
theorem C21_zero_bins_ub : ∃ st0, new { numInput := 1, numStash := 1, numHash := 3, numBins := 0 } = .ok st0 ∧
    inserts { numInput := 1, numStash := 1, numHash := 3, numBins := 0 } st0 [[1]] = .error .ub := by
  refine ⟨_, rfl, ?_⟩
  decide +kernel

end Yacl.Cuckoo
