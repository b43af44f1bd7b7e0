import Verif.Kernel.Ggm

/-! C39: SGRR (n-1)-out-of-n OT. -/
namespace Yacl.Ggm

/-- Child seeds of the `m` seeds `o`: left children first. -/
def kids (p0 p1 : B → B) (m : Nat) (o : Nat → B) (j : Nat) : B := if j < m then p0 (o j) ^^^ o j else p1 (o (j - m)) ^^^ o (j - m)

theorem send_level (p0 p1 : B → B) (n : Nat) (seed : B) (i : Nat) (hi : 2 ^ i < n) (j : Nat) (hj : j < min (2 * 2 ^ i) n) :
    (sgrrSendLevels p0 p1 n seed (i + 1)).1 j = kids p0 p1 (2 ^ i) (sgrrSendLevels p0 p1 n seed i).1 j := by
  simp only [sgrrSendLevels, if_pos hj, min_eq_left (Nat.le_of_lt hi), kids, splitAll]
  by_cases h : j < 2 ^ i
  · simp only [h, if_true]
  · simp only [h, if_false]
    rw [if_pos (by omega)]

theorem send_msgs_length (p0 p1 : B → B) (n : Nat) (seed : B) (i : Nat) : (sgrrSendLevels p0 p1 n seed i).2.length = i := by
  induction i with
  | zero => rfl
  | succ i ih => simp [sgrrSendLevels, ih]

theorem send_msgs (p0 p1 : B → B) (n : Nat) (seed : B) (l i : Nat) (hil : i < l) (hi : 2 ^ i < n) :
    (sgrrSendLevels p0 p1 n seed l).2.getD i (0, 0) =
      (xsum (kids p0 p1 (2 ^ i) (sgrrSendLevels p0 p1 n seed i).1) (2 ^ i),
       xsum (fun j => kids p0 p1 (2 ^ i) (sgrrSendLevels p0 p1 n seed i).1 (j + 2 ^ i)) (2 ^ i)) := by
  induction l with
  | zero => omega
  | succ l ih =>
    have hl := send_msgs_length p0 p1 n seed l
    have e : (sgrrSendLevels p0 p1 n seed (l + 1)).2.getD i (0, 0) =
        if i < l then (sgrrSendLevels p0 p1 n seed l).2.getD i (0, 0)
        else ((sgrrSendLevels p0 p1 n seed (l + 1)).2.getLastD (0, 0)) := by
      simp only [sgrrSendLevels]
      by_cases h : i < l
      · rw [if_pos h, List.getD_eq_getElem?_getD, List.getElem?_append_left (by omega), ← List.getD_eq_getElem?_getD]
      · rw [if_neg h, List.getD_eq_getElem?_getD, List.getElem?_append_right (by omega), hl, show i - l = 0 by omega]
        simp
    rw [e]
    by_cases h : i < l
    · rw [if_pos h, ih h]
    · have : i = l := by omega
      subst this
      rw [if_neg h]
      simp only [sgrrSendLevels, List.getLastD_concat, min_eq_left (Nat.le_of_lt hi)]
      refine Prod.ext ?_ ?_
      · apply xsum_congr
        intro j hj
        simp only [kids, splitAll, hj, if_true]
      · apply xsum_congr
        intro j hj
        simp only [kids, splitAll]
        rw [if_neg (by omega), if_pos (by omega), if_neg (by omega), if_neg (by omega)]

theorem punctured_eq (index i : Nat) : puncturedIdx index i = index % 2 ^ i + (if index.testBit i then 2 ^ i else 0) := by
  unfold puncturedIdx
  rw [Nat.mod_pow_succ, Nat.testBit_eq_decide_div_mod_eq]
  have : index / 2 ^ i % 2 = 0 ∨ index / 2 ^ i % 2 = 1 := by omega
  rcases this with h | h <;> simp [h]

theorem inserted_eq (index i : Nat) : insertedIdx index i = index % 2 ^ i + (if index.testBit i then 0 else 2 ^ i) := by
  unfold insertedIdx
  have hp := punctured_eq index i
  have hpos : 0 < 2 ^ i := Nat.two_pow_pos i
  have hlt : index % 2 ^ i < 2 ^ i := Nat.mod_lt _ hpos
  have hmod : (puncturedIdx index i ^^^ 2 ^ i) % 2 ^ i = index % 2 ^ i := by
    rw [Nat.xor_mod_two_pow, Nat.mod_self, Nat.xor_zero, hp]
    split
    · rw [Nat.add_mod_right, Nat.mod_mod]
    · rw [Nat.add_zero, Nat.mod_mod]
  have hdiv : (puncturedIdx index i ^^^ 2 ^ i) / 2 ^ i = (if index.testBit i then 0 else 1) := by
    rw [Nat.xor_div_two_pow, Nat.div_self hpos, hp]
    split
    · rw [Nat.add_div_right _ hpos, Nat.div_eq_of_lt hlt]
      rfl
    · rw [Nat.add_zero, Nat.div_eq_of_lt hlt]
      rfl
  have h := Nat.div_add_mod (puncturedIdx index i ^^^ 2 ^ i) (2 ^ i)
  rw [hmod, hdiv] at h
  rw [← h]
  split <;> omega

/-- The GGM invariant: at every level the receiver knows all seeds but the punctured one. -/
theorem ggm_inv (p0 p1 : B → B) (n index : Nat) (seed : B) (ins : Nat → B) (l : Nat) (hl : ∀ i < l, 2 ^ i < n)
    (hins : ∀ i < l, ins i = if index.testBit i then
        xsum (kids p0 p1 (2 ^ i) (sgrrSendLevels p0 p1 n seed i).1) (2 ^ i)
      else xsum (fun j => kids p0 p1 (2 ^ i) (sgrrSendLevels p0 p1 n seed i).1 (j + 2 ^ i)) (2 ^ i)) :
    sgrrRecvLevels p0 p1 n index ins l (index % 2 ^ l) = 0 ∧
    ∀ j < min (2 ^ l) n, j ≠ index % 2 ^ l → sgrrRecvLevels p0 p1 n index ins l j = (sgrrSendLevels p0 p1 n seed l).1 j := by
  induction l with
  | zero =>
    refine ⟨rfl, fun j hj hne => ?_⟩
    rw [Nat.pow_zero, Nat.mod_one] at hne
    omega
  | succ i ih =>
    obtain ⟨ih0, ih1⟩ := ih (fun k hk => hl k (by omega)) (fun k hk => hins k (by omega))
    have hin := hl i (by omega)
    have hI := hins i (by omega)
    have hp := punctured_eq index i
    have hq := inserted_eq index i
    have hpe : puncturedIdx index i = index % 2 ^ (i + 1) := rfl
    have hpos : 0 < 2 ^ i := Nat.two_pow_pos i
    have ha : index % 2 ^ i < 2 ^ i := Nat.mod_lt _ hpos
    have hp2 : 2 ^ (i + 1) = 2 * 2 ^ i := by rw [Nat.pow_succ]; omega
    rw [min_eq_left (Nat.le_of_lt hin)] at ih1
    have hsend := send_level p0 p1 n seed i hin
    simp only [sgrrRecvLevels]
    rw [← hpe]
    generalize hR : sgrrRecvLevels p0 p1 n index ins i = R at *
    generalize hS : (sgrrSendLevels p0 p1 n seed i).1 = S at *
    generalize puncturedIdx index i = p at *
    generalize insertedIdx index i = q at *
    rw [min_eq_left (Nat.le_of_lt hin)]
    have hpq : p ≠ q := by rw [hp, hq]; split <;> omega
    have hskip : ∀ j < 2 ^ i, (j = p ∨ j = q) ↔ j = index % 2 ^ i := by
      intro j hj
      rw [hp, hq]
      cases index.testBit i
      · simp
        omega
      · simp
        omega
    refine ⟨by rw [if_neg (fun h => hpq h.2)]; simp, ?_⟩
    intro j hj hjp
    rw [hp2] at hj
    rw [hsend j hj]
    -- the inserted value
    have hval : (if i ≠ 0 then
          ins i ^^^ xsum (fun j => if j = p ∨ j = q then 0 else if index.testBit i = true then
            (if j < 2 ^ i then (if j = p ∨ j = q then splitAll p0 p1 (2 ^ i) R j else splitAll p0 p1 (2 ^ i) R j ^^^ R j)
              else if 2 ^ i ≤ j ∧ j - 2 ^ i < 2 ^ i then (if j - 2 ^ i = p ∨ j - 2 ^ i = q then splitAll p0 p1 (2 ^ i) R j else splitAll p0 p1 (2 ^ i) R j ^^^ R (j - 2 ^ i)) else splitAll p0 p1 (2 ^ i) R j)
            else
            (if j + 2 ^ i < 2 ^ i then (if j + 2 ^ i = p ∨ j + 2 ^ i = q then splitAll p0 p1 (2 ^ i) R (j + 2 ^ i) else splitAll p0 p1 (2 ^ i) R (j + 2 ^ i) ^^^ R (j + 2 ^ i))
              else if 2 ^ i ≤ j + 2 ^ i ∧ j + 2 ^ i - 2 ^ i < 2 ^ i then (if j + 2 ^ i - 2 ^ i = p ∨ j + 2 ^ i - 2 ^ i = q then splitAll p0 p1 (2 ^ i) R (j + 2 ^ i) else splitAll p0 p1 (2 ^ i) R (j + 2 ^ i) ^^^ R (j + 2 ^ i - 2 ^ i)) else splitAll p0 p1 (2 ^ i) R (j + 2 ^ i))) (2 ^ i)
        else ins i) = kids p0 p1 (2 ^ i) S q := by
      rw [hI]
      cases hb : index.testBit i with
      | true =>
        have hqa : q = index % 2 ^ i := by rw [hq, hb]; simp
        simp only [if_true]
        by_cases hi0 : i = 0
        · subst hi0
          rw [if_neg (by simp), hqa]
          simp only [Nat.pow_zero, Nat.mod_one]
          show xsum _ (0 + 1) = _
          rw [xsum_succ]
          exact BitVec.zero_xor
        · rw [if_pos hi0]
          have e : xsum (fun j => if j = p ∨ j = q then 0 else
              (if j < 2 ^ i then (if j = p ∨ j = q then splitAll p0 p1 (2 ^ i) R j else splitAll p0 p1 (2 ^ i) R j ^^^ R j)
              else if 2 ^ i ≤ j ∧ j - 2 ^ i < 2 ^ i then (if j - 2 ^ i = p ∨ j - 2 ^ i = q then splitAll p0 p1 (2 ^ i) R j else splitAll p0 p1 (2 ^ i) R j ^^^ R (j - 2 ^ i)) else splitAll p0 p1 (2 ^ i) R j)) (2 ^ i) =
              xsum (fun j => if j = index % 2 ^ i then 0 else kids p0 p1 (2 ^ i) S j) (2 ^ i) := by
            apply xsum_congr
            intro j hj
            by_cases hja : j = index % 2 ^ i
            · rw [if_pos ((hskip j hj).mpr hja), if_pos hja]
            · have hns : ¬ (j = p ∨ j = q) := fun h => hja ((hskip j hj).mp h)
              simp only [hns, hja, hj, if_false, if_true, kids, splitAll]
              rw [ih1 j hj hja]
          rw [e, xsum_except _ _ _ ha, ← BitVec.xor_assoc, BitVec.xor_self, BitVec.zero_xor, hqa]
      | false =>
        have hqa : q = index % 2 ^ i + 2 ^ i := by rw [hq, hb]; simp
        simp only [Bool.false_eq_true, if_false]
        by_cases hi0 : i = 0
        · subst hi0
          rw [if_neg (by simp), hqa]
          simp only [Nat.pow_zero, Nat.mod_one]
          show xsum _ (0 + 1) = _
          rw [xsum_succ]
          exact BitVec.zero_xor
        · rw [if_pos hi0]
          have e : xsum (fun j => if j = p ∨ j = q then 0 else
              (if j + 2 ^ i < 2 ^ i then (if j + 2 ^ i = p ∨ j + 2 ^ i = q then splitAll p0 p1 (2 ^ i) R (j + 2 ^ i) else splitAll p0 p1 (2 ^ i) R (j + 2 ^ i) ^^^ R (j + 2 ^ i))
              else if 2 ^ i ≤ j + 2 ^ i ∧ j + 2 ^ i - 2 ^ i < 2 ^ i then (if j + 2 ^ i - 2 ^ i = p ∨ j + 2 ^ i - 2 ^ i = q then splitAll p0 p1 (2 ^ i) R (j + 2 ^ i) else splitAll p0 p1 (2 ^ i) R (j + 2 ^ i) ^^^ R (j + 2 ^ i - 2 ^ i)) else splitAll p0 p1 (2 ^ i) R (j + 2 ^ i))) (2 ^ i) =
              xsum (fun j => if j = index % 2 ^ i then 0 else kids p0 p1 (2 ^ i) S (j + 2 ^ i)) (2 ^ i) := by
            apply xsum_congr
            intro j hj
            by_cases hja : j = index % 2 ^ i
            · rw [if_pos ((hskip j hj).mpr hja), if_pos hja]
            · have hns : ¬ (j = p ∨ j = q) := fun h => hja ((hskip j hj).mp h)
              simp only [hns, hja, if_false, kids, splitAll, show ¬ j + 2 ^ i < 2 ^ i by omega, Nat.add_sub_cancel,
                show 2 ^ i ≤ j + 2 ^ i by omega, hj, and_self, if_true]
              rw [ih1 j hj hja]
          rw [e, xsum_except (fun j => kids p0 p1 (2 ^ i) S (j + 2 ^ i)) _ _ ha, ← BitVec.xor_assoc, BitVec.xor_self, BitVec.zero_xor, hqa]
    by_cases hjq : j = q
    · subst hjq
      rw [if_pos ⟨by omega, rfl⟩]
      exact hval
    · rw [if_neg (fun h => hjq h.2), if_neg hjp]
      have hi0 : i ≠ 0 := by
        rintro rfl
        simp only [Nat.pow_zero, Nat.mod_one] at hp hq hj
        cases hb : index.testBit 0 <;> simp [hb] at hp hq <;> omega
      rw [if_pos hi0, if_pos hj]
      by_cases hjl : j < 2 ^ i
      · have hns : ¬ (j = p ∨ j = q) := fun h => h.elim hjp hjq
        have hja : j ≠ index % 2 ^ i := fun h => hns ((hskip j hjl).mpr h)
        simp only [hjl, if_true, hns, if_false, kids, splitAll]
        rw [ih1 j hjl hja]
      · have hj' : j - 2 ^ i < 2 ^ i := by omega
        have hja : j - 2 ^ i ≠ index % 2 ^ i := by
          intro h
          rw [hp] at hjp
          rw [hq] at hjq
          cases hb : index.testBit i <;> simp [hb] at hjp hjq <;> omega
        have hns : ¬ (j - 2 ^ i = p ∨ j - 2 ^ i = q) := fun h => hja ((hskip _ hj').mp h)
        simp only [hjl, if_false, show 2 ^ i ≤ j by omega, hj', and_self, if_true, hns, kids, splitAll]
        rw [ih1 _ hj' hja]

/-- What SGRR must achieve: the receiver's vector is the sender's with position `index` zeroed. -/
def AllButOne (n index : Nat) (send recv : List B) : Prop :=
  send.length = n ∧ recv.length = n ∧
  ∀ (j : Nat) (x y : B), send[j]? = some x → recv[j]? = some y → y = if j = index then 0 else x

theorem sgrr_arrays (p0 p1 : B → B) (n index : Nat) (seed : B) (ins : Nat → B) (h1 : 2 ≤ n) (h2 : n ≤ 2 ^ 31) (hix : index < n)
    (hins : ∀ i < height n, ins i = if index.testBit i then
        ((sgrrSendLevels p0 p1 n seed (height n)).2.getD i (0, 0)).1 else ((sgrrSendLevels p0 p1 n seed (height n)).2.getD i (0, 0)).2) :
    ∀ j < n, sgrrRecvLevels p0 p1 n index ins (height n) j = if j = index then 0 else (sgrrSendLevels p0 p1 n seed (height n)).1 j := by
  obtain ⟨ha, hb, hc⟩ := height_spec n h1 h2
  have hlv : ∀ i < height n, 2 ^ i < n := by
    intro i hi
    have : 2 ^ i ≤ 2 ^ (height n - 1) := Nat.pow_le_pow_right (by omega) (by omega)
    omega
  obtain ⟨g0, g1⟩ := ggm_inv p0 p1 n index seed ins (height n) hlv (by
    intro i hi
    rw [hins i hi, send_msgs p0 p1 n seed _ i hi (hlv i hi)])
  rw [Nat.mod_eq_of_lt (by omega)] at g0 g1
  intro j hj
  split
  · next h => rw [h, g0]
  · next h => exact g1 j (by omega) h

theorem foldl_xor_acc (l : List (BitVec 256)) (a : BitVec 256) : l.foldl (fun t x => x ^^^ t) a = l.foldl (fun t x => x ^^^ t) 0 ^^^ a := by
  induction l generalizing a with
  | nil => exact (BitVec.zero_xor).symm
  | cons x l ih =>
    simp only [List.foldl_cons]
    rw [ih (x ^^^ a), ih (x ^^^ 0), BitVec.xor_assoc, BitVec.xor_assoc]
    congr 2
    exact (BitVec.zero_xor).symm

theorem foldl_xor_set (l : List (BitVec 256)) (i : Nat) (hi : i < l.length) (v : BitVec 256) :
    (l.set i v).foldl (fun t x => x ^^^ t) 0 = l.foldl (fun t x => x ^^^ t) 0 ^^^ l.getD i 0 ^^^ v := by
  induction l generalizing i with
  | nil => simp at hi
  | cons x l ih =>
    cases i with
    | zero =>
      simp only [List.set_cons_zero, List.foldl_cons, List.getD_cons_zero]
      rw [foldl_xor_acc l (v ^^^ 0), foldl_xor_acc l (x ^^^ 0)]
      generalize l.foldl (fun t x => x ^^^ t) 0 = s
      apply BitVec.eq_of_getLsbD_eq
      intro k _
      simp only [BitVec.getLsbD_xor]
      cases s.getLsbD k <;> cases x.getLsbD k <;> cases v.getLsbD k <;> simp
    | succ i =>
      simp only [List.set_cons_succ, List.foldl_cons, List.getD_cons_succ]
      rw [foldl_xor_acc _ (x ^^^ 0), foldl_xor_acc l (x ^^^ 0), ih i (by simpa using hi)]
      ac_rfl

/-- The consistency check accepts an honest run. -/
theorem check_ok (hb : B → BitVec 256) (hs : List (BitVec 256) → BitVec 256) (send : List B) (index : Nat) (hi : index < send.length) :
    verifyCheck hb hs index (send.set index 0) (genCheck hb hs send) = true := by
  have e1 : (send.set index 0).map hb = (send.map hb).set index (hb 0) := List.map_set
  have hl : index < (send.map hb).length := by simpa using hi
  simp only [verifyCheck, genCheck, decide_eq_true_eq, e1]
  congr 1
  rw [List.set_set, foldl_xor_acc, foldl_xor_set _ _ hl]
  have e2 : ((send.map hb).set index (hb 0)).getD index 0 = hb 0 := by
    rw [List.getD_eq_getElem?_getD, List.getElem?_set_self hl]
    rfl
  rw [e2]
  generalize (send.map hb).foldl (fun t x => x ^^^ t) 0 = s
  have e3 : s ^^^ (send.map hb).getD index 0 ^^^ hb 0 ^^^ s ^^^ hb 0 = (send.map hb).getD index 0 := by
    generalize (send.map hb).getD index 0 = u
    generalize hb 0 = z
    apply BitVec.eq_of_getLsbD_eq
    intro k _
    simp only [BitVec.getLsbD_xor]
    cases s.getLsbD k <;> cases u.getLsbD k <;> cases z.getLsbD k <;> rfl
  rw [e3, List.getD_eq_getElem _ _ hl]
  exact List.set_getElem_self hl

theorem set_map_range (f : Nat → B) (n index : Nat) (v : B) :
    ((List.range n).map f).set index v = (List.range n).map fun j => if j = index then v else f j := by
  apply List.ext_getElem (by simp)
  intro j h1 h2
  simp only [List.getElem_set, List.getElem_map, List.getElem_range]
  by_cases h : index = j
  · simp [h]
  · rw [if_neg h, if_neg (fun e => h e.symm)]

theorem allButOne_set (l : List B) (index : Nat) : AllButOne l.length index l (l.set index 0) := by
  refine ⟨rfl, by simp, ?_⟩
  intro j x y hx hy
  by_cases h : j = index
  · subst h
    rw [List.getElem?_set_self (by
      by_contra hcon
      rw [List.getElem?_eq_none (by omega)] at hx
      simp at hx)] at hy
    rw [if_pos rfl]
    exact (Option.some.inj hy).symm
  · rw [List.getElem?_set_ne (fun e => h e.symm), hx] at hy
    rw [if_neg h]
    exact (Option.some.inj hy).symm

/-- The protocol once the receiver's unmasked messages are the sums the sender meant for it. -/
theorem sgrr_core (p0 p1 crh : B → B) (hb : B → BitVec 256) (hs : List (BitVec 256) → BitVec 256) (b : Base) (seed : B) (n index : Nat)
    (mal : Bool) (h1 : 2 ≤ n) (h2 : n ≤ 2 ^ 31) (hix : index < n) (msgs : List (B × B))
    (hins : ∀ i < height n, (if index.testBit i then (msgs.getD i (0, 0)).1 else (msgs.getD i (0, 0)).2) ^^^ b.blk i (b.c i) =
      if index.testBit i then ((sgrrSendLevels p0 p1 n seed (height n)).2.getD i (0, 0)).1
      else ((sgrrSendLevels p0 p1 n seed (height n)).2.getD i (0, 0)).2) :
    ∃ recv, sgrrRecv p0 p1 crh hb hs b n index mal msgs (genCheck hb hs ((List.range n).map (sgrrSendLevels p0 p1 n seed (height n)).1)) = some recv ∧
      AllButOne n index (if mal then ((List.range n).map (sgrrSendLevels p0 p1 n seed (height n)).1).map crh
        else (List.range n).map (sgrrSendLevels p0 p1 n seed (height n)).1) recv := by
  have harr := sgrr_arrays p0 p1 n index seed _ h1 h2 hix hins
  generalize hO : (List.range n).map (sgrrSendLevels p0 p1 n seed (height n)).1 = O at *
  have hOl : O.length = n := by rw [← hO]; simp
  have hR : (List.range n).map (sgrrRecvLevels p0 p1 n index (fun i => (if index.testBit i then (msgs.getD i (0, 0)).1 else
      (msgs.getD i (0, 0)).2) ^^^ b.blk i (b.c i)) (height n)) = O.set index 0 := by
    rw [← hO, set_map_range]
    apply List.map_congr_left
    intro j hj
    exact harr j (List.mem_range.mp hj)
  unfold sgrrRecv
  rw [if_pos ⟨by omega, hix⟩]
  simp only [hR]
  cases mal with
  | false =>
    refine ⟨O.set index 0, rfl, ?_⟩
    have := allButOne_set O index
    rwa [hOl] at this
  | true =>
    simp only [if_true, check_ok hb hs O index (by omega)]
    refine ⟨_, rfl, ?_⟩
    have e : ((O.set index 0).map crh).set index 0 = (O.map crh).set index 0 := by
      rw [List.map_set, List.set_set]
    rw [e]
    have := allButOne_set (O.map crh) index
    rwa [List.length_map, hOl] at this

theorem msg_getD {f : Nat → B × B} {n i : Nat} (h : i < n) : ((List.range n).map f).getD i (0, 0) = f i := by
  rw [List.getD_eq_getElem?_getD, List.getElem?_map, List.getElem?_range h]
  rfl

/-- C39. For every `n > 1`, `index < n`, seed, permutations and hashes, base OTs and base choices, with or without the malicious-security check: the
check accepts and the receiver holds exactly the sender's seeds, except that position `index` is zero. -/
theorem C39_sgrr (p0 p1 crh : B → B) (hb : B → BitVec 256) (hs : List (BitVec 256) → BitVec 256) (b : Base) (seed : B) (n index : Nat) (mal : Bool)
    (h1 : 2 ≤ n) (h2 : n ≤ 2 ^ 31) (hix : index < n) :
    ∃ msgs proof send recv, sgrrSend p0 p1 crh hb hs b seed n mal (sgrrMask b index) = some (msgs, proof, send) ∧
      sgrrRecv p0 p1 crh hb hs b n index mal msgs proof = some recv ∧ AllButOne n index send recv := by
  obtain ⟨recv, hr, hab⟩ := sgrr_core p0 p1 crh hb hs b seed n index mal h1 h2 hix
    ((List.range (height n)).map fun i =>
      (((sgrrSendLevels p0 p1 n seed (height n)).2.getD i (0, 0)).1 ^^^ b.blk i (sgrrMask b index i),
       ((sgrrSendLevels p0 p1 n seed (height n)).2.getD i (0, 0)).2 ^^^ b.blk i (!sgrrMask b index i))) (by
    intro i hi
    rw [msg_getD hi]
    unfold sgrrMask
    cases index.testBit i <;> cases b.c i <;> simp [BitVec.xor_assoc])
  refine ⟨_, _, _, recv, by unfold sgrrSend; rw [if_pos (by omega)], hr, hab⟩

/-- C39, fixed-index variant: the index is spelled by the base choices; the receiver refuses when it is not below `n`. -/
theorem C39_sgrr_fixed (p0 p1 crh : B → B) (hb : B → BitVec 256) (hs : List (BitVec 256) → BitVec 256) (b : Base) (seed : B) (n : Nat) (mal : Bool)
    (h1 : 2 ≤ n) (h2 : n ≤ 2 ^ 31) :
    ∃ msgs proof send index, sgrrFixedSend p0 p1 crh hb hs b seed n mal = some (msgs, proof, send) ∧
      (∀ i < height n, index.testBit i = b.c i) ∧ index < 2 ^ height n ∧
      (index < n → ∃ recv, sgrrFixedRecv p0 p1 crh hb hs b n mal msgs proof = some recv ∧ AllButOne n index send recv) ∧
      (n ≤ index → sgrrFixedRecv p0 p1 crh hb hs b n mal msgs proof = none) := by
  refine ⟨_, _, _, choiceIndex b.c (height n), by unfold sgrrFixedSend; rw [if_pos (by omega)],
    fun i hi => by rw [choiceIndex_testBit]; simp [hi], choiceIndex_lt _ _, ?_, ?_⟩
  · intro hix
    obtain ⟨recv, hr, hab⟩ := sgrr_core p0 p1 crh hb hs b seed n _ mal h1 h2 hix
      ((List.range (height n)).map fun i =>
        (b.blk i true ^^^ ((sgrrSendLevels p0 p1 n seed (height n)).2.getD i (0, 0)).1,
         b.blk i false ^^^ ((sgrrSendLevels p0 p1 n seed (height n)).2.getD i (0, 0)).2)) (by
      intro i hi
      rw [msg_getD hi, choiceIndex_testBit]
      cases b.c i <;> simp [hi, BitVec.xor_assoc, xor_l1])
    exact ⟨recv, hr, hab⟩
  · intro h
    unfold sgrrFixedRecv sgrrRecv
    rw [if_neg (by omega)]

example : (2 : Nat) ≤ 5 ∧ 5 ≤ 2 ^ 31 ∧ 3 < 5 := by omega
/-- A run for five leaves and index 3: the receiver's last but one seed is zero, the others are the sender's. -/
example : (sgrrRecv (fun x => x * 5 + 1) (fun x => x * 7 + 2) id (fun x => x.setWidth 256) (fun l => l.foldl (· + ·) 0) (exBase 7) 5 3 true
    ((sgrrSend (fun x => x * 5 + 1) (fun x => x * 7 + 2) id (fun x => x.setWidth 256) (fun l => l.foldl (· + ·) 0) (exBase 7) 9 5 true
      (sgrrMask (exBase 7) 3)).getD ([], (0, 0), [])).1
    ((sgrrSend (fun x => x * 5 + 1) (fun x => x * 7 + 2) id (fun x => x.setWidth 256) (fun l => l.foldl (· + ·) 0) (exBase 7) 9 5 true
      (sgrrMask (exBase 7) 3)).getD ([], (0, 0), [])).2.1).map (fun l => l.map (· == 0)) = some [false, false, false, true, false] := by
  decide +kernel

/-- C77. The consistency proof binds the sender: if one proof is accepted in two executions, for any two indices and any two vectors the receiver may have
derived, then the vectors agree at every position other than the two indices, or a collision of one of the hashes is at hand. -/
theorem C77_check_binding (hb : B → BitVec 256) (hs : List (BitVec 256) → BitVec 256) (o o' : List B) (i i' : Nat)
    (proof : BitVec 256 × BitVec 256) (hl : o.length = o'.length) (ha : verifyCheck hb hs i o proof = true) (hb' : verifyCheck hb hs i' o' proof = true) :
    (∃ x y, x ≠ y ∧ hs x = hs y) ∨ (∃ x y, x ≠ y ∧ hb x = hb y) ∨ ∀ (j : Nat), j ≠ i → j ≠ i' → o[j]? = o'[j]? := by
  simp only [verifyCheck, decide_eq_true_eq] at ha hb'
  by_cases h1 : ∃ x y, x ≠ y ∧ hs x = hs y
  · exact Or.inl h1
  by_cases h2 : ∃ x y, x ≠ y ∧ hb x = hb y
  · exact Or.inr (Or.inl h2)
  refine Or.inr (Or.inr fun j hi hi' => ?_)
  have e : ∀ {x y}, hs x = hs y → x = y := fun {x y} h => by
    by_contra hne
    exact h1 ⟨x, y, hne, h⟩
  have e2 : ∀ {x y}, hb x = hb y → x = y := fun {x y} h => by
    by_contra hne
    exact h2 ⟨x, y, hne, h⟩
  have h := congrArg (fun l : List (BitVec 256) => l[j]?) (e (ha.trans hb'.symm))
  rw [List.getElem?_set_ne (fun e => hi e.symm), List.getElem?_set_ne (fun e => hi' e.symm), List.getElem?_map, List.getElem?_map] at h
  by_cases hj : j < o.length
  · rw [List.getElem?_eq_getElem hj, List.getElem?_eq_getElem (by omega)] at h ⊢
    exact congrArg some (e2 (Option.some.inj h))
  · rw [List.getElem?_eq_none (by omega), List.getElem?_eq_none (by omega)]

/-- One honest proof is accepted for two different indices, so the hypotheses can be met. -/
example : verifyCheck (fun x => x.setWidth 256) (fun l => l.foldl (· + ·) 0) 0 [0, 5, 6] (genCheck (fun x => x.setWidth 256) (fun l => l.foldl (· + ·) 0) [4, 5, 6]) = true ∧
    verifyCheck (fun x => x.setWidth 256) (fun l => l.foldl (· + ·) 0) 2 [4, 5, 0] (genCheck (fun x => x.setWidth 256) (fun l => l.foldl (· + ·) 0) [4, 5, 6]) = true := by
  decide +kernel

end Yacl.Ggm
