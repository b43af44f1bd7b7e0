import Verif.Link.CollectiveGeneric
import Mathlib.Data.Nat.Log

/-! Structure of the individual collective programs and of scripts of calls. -/
namespace Yacl.Link
open Yacl.Channel (Bytes)

theorem prevRank_eq {W r s : Nat} (hW : W < 2 ^ 62) (hr : r < W) (hs : s ≤ W) : prevRank W r s = (r + W - s) % W := by
  unfold prevRank
  have h1 : s % 2 ^ 64 = s := Nat.mod_eq_of_lt (by omega)
  rw [h1]
  have h2 : (r + 2 ^ 64 - s + W) % 2 ^ 64 = r + W - s := by
    have : r + 2 ^ 64 - s + W = (r + W - s) + 2 ^ 64 := by omega
    rw [this, Nat.add_mod_right, Nat.mod_eq_of_lt (by omega)]
  rw [h2]

theorem nextRank_eq {W r s : Nat} (hW : W < 2 ^ 62) (hr : r < W) (hs : s ≤ W) : nextRank W r s = (r + s) % W := by
  unfold nextRank
  rw [Nat.mod_eq_of_lt (a := r + s) (by omega)]

/-- Reduce `(a) % W` for `a < 2W`. -/
theorem mod2 {a W : Nat} (h : a < 2 * W) : a % W = if a < W then a else a - W := by
  split
  · rename_i h'; exact Nat.mod_eq_of_lt h'
  · rw [Nat.mod_eq_sub_mod (by omega), Nat.mod_eq_of_lt (by omega)]

theorem prev_lt {W r s : Nat} (hW : W < 2 ^ 62) (hr : r < W) (hs : s ≤ W) : prevRank W r s < W := by
  rw [prevRank_eq hW hr hs]; exact Nat.mod_lt _ (by omega)
theorem next_lt {W r s : Nat} (hW : W < 2 ^ 62) (hr : r < W) (hs : s ≤ W) : nextRank W r s < W := by
  rw [nextRank_eq hW hr hs]; exact Nat.mod_lt _ (by omega)

/-- Ring distance from `a` to `b`. -/
def dist (W a b : Nat) : Nat := (b + W - a) % W

theorem dist_next {W r s : Nat} (hW : W < 2 ^ 62) (hr : r < W) (hs : s < W) : dist W r (nextRank W r s) = s := by
  rw [nextRank_eq hW hr (by omega), dist, mod2 (a := r + s) (by omega)]
  split <;> rw [mod2 (by omega)] <;> split <;> omega

theorem dist_prev {W r s : Nat} (hW : W < 2 ^ 62) (hr : r < W) (hs : s < W) : dist W (prevRank W r s) r = s := by
  rw [prevRank_eq hW hr (by omega), dist, mod2 (a := r + W - s) (by omega)]
  split <;> rw [mod2 (by omega)] <;> split <;> omega

theorem next_prev {W r s : Nat} (hW : W < 2 ^ 62) (hr : r < W) (hs : s < W) : nextRank W (prevRank W r s) s = r := by
  rw [nextRank_eq hW (prev_lt hW hr (by omega)) (by omega), prevRank_eq hW hr (by omega), mod2 (a := r + W - s) (by omega)]
  split <;> rw [mod2 (by omega)] <;> split <;> omega

theorem prev_next {W r s : Nat} (hW : W < 2 ^ 62) (hr : r < W) (hs : s < W) : prevRank W (nextRank W r s) s = r := by
  rw [prevRank_eq hW (next_lt hW hr (by omega)) (by omega), nextRank_eq hW hr (by omega), mod2 (a := r + s) (by omega)]
  split <;> rw [mod2 (by omega)] <;> split <;> omega

theorem dist_self {W r : Nat} (hr : r < W) : dist W r r = 0 := by
  rw [dist, show r + W - r = W by omega, Nat.mod_self]

theorem next_ne {W r s : Nat} (hW : W < 2 ^ 62) (hr : r < W) (hs : s < W) (h0 : 0 < s) : nextRank W r s ≠ r := by
  intro h
  have := dist_next hW hr hs
  rw [h, dist_self hr] at this; omega
theorem prev_ne {W r s : Nat} (hW : W < 2 ^ 62) (hr : r < W) (hs : s < W) (h0 : 0 < s) : prevRank W r s ≠ r := by
  intro h
  have := dist_prev hW hr hs
  rw [h, dist_self hr] at this; omega

/-- Event number of an operation. -/
def keyOf : Op → Nat
  | .call k | .assign k _ _ | .send _ k _ | .recv _ k _ | .ret k => k
  | .fail => 0

/-- Level of an operation inside a call; receives are above the matching sends. -/
def lvl (W : Nat) (c : Call) (r : Nat) : Op → Nat
  | .call _ => 0
  | .ret _ => 2 * W + 1
  | .fail => 0
  | .assign _ _ _ => match c with
    | .bcast _ _ => 0
    | _ => 1
  | .send dst _ _ => match c with
    | .barrier => 2 * dist W r dst
    | .bcast _ _ => 2 * (W - dist W r dst)
    | _ => 0
  | .recv src _ _ => match c with
    | .barrier => 2 * dist W src r + 1
    | .bcast _ _ => 2 * (W - dist W src r) + 1
    | _ => 1

/-- Message contents of a call. -/
def msgOf (c : Call) (src dst : Nat) : Bytes :=
  match c with
  | .barrier => []
  | .bcast root input => input root
  | .gather _ input => input src
  | .allgather input => input src
  | .scatter _ inputs => (inputs src).getD dst []

/-- Arguments for which the call is meaningful. -/
def Call.Valid (W : Nat) : Call → Prop
  | .barrier => True
  | .bcast root _ => root < W
  | .gather root _ => root < W
  | .allgather _ => True
  | .scatter root inputs => root < W ∧ (inputs root).length = W

def isComm : Op → Prop
  | .assign _ _ _ | .send _ _ _ | .recv _ _ _ => True
  | _ => False

/-- What is needed of the body of one call. -/
structure CallOK (W : Nat) (c : Call) (key : Nat) : Prop where
  comm : ∀ r, r < W → ∀ op ∈ callBody W r key c, keyOf op = key ∧ isComm op
  indep : ∀ r, r < W → (callBody W r key c).Pairwise Indep
  valid_send : ∀ r dst p, r < W → Op.send dst key p ∈ callBody W r key c → dst < W ∧ dst ≠ r
  matched : ∀ r src i, r < W → Op.recv src key i ∈ callBody W r key c →
    src < W ∧ src ≠ r ∧ ∃ p, Op.send r key p ∈ callBody W src key c ∧ lvl W c src (.send r key p) < lvl W c r (.recv src key i)
  matched' : ∀ r dst p, r < W → Op.send dst key p ∈ callBody W r key c → ∃ i, Op.recv r key i ∈ callBody W dst key c
  sorted : ∀ r, r < W → (callBody W r key c).Pairwise (fun a b => lvl W c r a ≤ lvl W c r b)
  bound : ∀ r, r < W → ∀ op ∈ callBody W r key c, lvl W c r op ≤ 2 * W + 1

/-! #### Barrier -/

/-- The offsets of the barrier rounds. -/
def offsets (W o : Nat) : List Nat :=
  if 0 < o ∧ o < W then o :: offsets W (o * 2) else []
termination_by W - o

theorem barrierOps_eq (W r key o : Nat) : barrierOps W r key o =
    (offsets W o).flatMap (fun o => [Op.send (nextRank W r o) key (.const []), Op.recv (prevRank W r o) key 0]) := by
  fun_induction barrierOps W r key o with
  | case1 o h ih => rw [offsets, if_pos h]; simp [ih]
  | case2 o h => rw [offsets, if_neg h]; simp

theorem offsets_mem (W o x : Nat) (h : x ∈ offsets W o) : o ≤ x ∧ 0 < x ∧ x < W := by
  fun_induction offsets W o with
  | case1 o h' ih =>
    rcases List.mem_cons.1 h with rfl | h
    · omega
    · have := ih h; omega
  | case2 => simp at h

theorem offsets_sorted (W o : Nat) : (offsets W o).Pairwise (· < ·) := by
  fun_induction offsets W o with
  | case1 o h' ih =>
    rw [List.pairwise_cons]
    refine ⟨?_, ih⟩
    intro x hx
    have := (offsets_mem W _ x hx).1; omega
  | case2 => simp

theorem pairwise_flatMap2 {l : List Nat} {f g : Nat → Op} {R : Op → Op → Prop} (hl : l.Pairwise (· < ·))
    (h0 : ∀ a ∈ l, R (f a) (g a))
    (h1 : ∀ a ∈ l, ∀ b ∈ l, a < b → R (f a) (f b) ∧ R (f a) (g b) ∧ R (g a) (f b) ∧ R (g a) (g b)) :
    (l.flatMap (fun o => [f o, g o])).Pairwise R := by
  induction l with
  | nil => simp
  | cons a l ih =>
    rw [List.pairwise_cons] at hl
    simp only [List.flatMap_cons, List.cons_append, List.nil_append, List.pairwise_cons, List.mem_cons, List.mem_flatMap]
    refine ⟨?_, ?_, ih hl.2 (fun a ha => h0 a (by simp [ha])) (fun a ha b hb => h1 a (by simp [ha]) b (by simp [hb]))⟩
    · rintro x (rfl | ⟨b, hb, hx⟩)
      · exact h0 a (by simp)
      · have := h1 a (by simp) b (by simp [hb]) (hl.1 b hb)
        simp at hx
        rcases hx with rfl | rfl
        · exact this.1
        · exact this.2.1
    · rintro x ⟨b, hb, hx⟩
      have := h1 a (by simp) b (by simp [hb]) (hl.1 b hb)
      simp at hx
      rcases hx with rfl | rfl
      · exact this.2.2.1
      · exact this.2.2.2

theorem indep_send_recv (a b c d : Nat) (p : Payload) (i : Nat) : Indep (.send a b p) (.recv c d i) := by
  constructor <;> simp [sendsTo, recvsFrom]
theorem indep_recv_send (a b c d : Nat) (p : Payload) (i : Nat) : Indep (.recv c d i) (.send a b p) := by
  constructor <;> simp [sendsTo, recvsFrom]
theorem indep_send_send {a b c d : Nat} {p q : Payload} (h : a ≠ c) : Indep (.send a b p) (.send c d q) := by
  constructor
  · rintro x y ⟨⟨_, h1⟩, _, h2⟩; simp at h1 h2; exact h (h1.1.trans h2.1.symm)
  · simp [recvsFrom]
theorem indep_recv_recv {a b c d i j : Nat} (h : a ≠ c) : Indep (.recv a b i) (.recv c d j) := by
  constructor
  · simp [sendsTo]
  · rintro x y ⟨⟨_, h1⟩, _, h2⟩; simp at h1 h2; exact h (h1.1.trans h2.1.symm)
theorem indep_of_key {a b : Op} (h : keyOf a ≠ keyOf b) : Indep a b := by
  constructor
  · rintro x y ⟨⟨_, rfl⟩, _, rfl⟩; simp [keyOf] at h
  · rintro x y ⟨⟨_, rfl⟩, _, rfl⟩; simp [keyOf] at h
theorem indep_assign_left (k i : Nat) (v : Bytes) (b : Op) : Indep (.assign k i v) b := by
  constructor <;> simp [sendsTo, recvsFrom]
theorem indep_assign_right (k i : Nat) (v : Bytes) (b : Op) : Indep b (.assign k i v) := by
  constructor <;> simp [sendsTo, recvsFrom]

theorem barrier_mem {W r key : Nat} {op : Op} : op ∈ callBody W r key .barrier ↔
    ∃ o ∈ offsets W 1, op = Op.send (nextRank W r o) key (.const []) ∨ op = Op.recv (prevRank W r o) key 0 := by
  simp only [callBody, barrierOps_eq, List.mem_flatMap, List.mem_cons, List.not_mem_nil, or_false]

theorem next_inj {W r a b : Nat} (hW : W < 2 ^ 62) (hr : r < W) (ha : a < W) (hb : b < W)
    (h : nextRank W r a = nextRank W r b) : a = b := by
  rw [← dist_next hW hr ha, h, dist_next hW hr hb]
theorem prev_inj {W r a b : Nat} (hW : W < 2 ^ 62) (hr : r < W) (ha : a < W) (hb : b < W)
    (h : prevRank W r a = prevRank W r b) : a = b := by
  rw [← dist_prev hW hr ha, h, dist_prev hW hr hb]

theorem barrier_ok {W key : Nat} (hW : W < 2 ^ 62) : CallOK W .barrier key := by
  constructor
  · intro r hr op ho
    obtain ⟨o, ho, rfl | rfl⟩ := barrier_mem.1 ho <;> simp [keyOf, isComm]
  · intro r hr
    simp only [callBody, barrierOps_eq]
    apply pairwise_flatMap2 (offsets_sorted W 1)
    · intro a _; exact indep_send_recv ..
    · intro a ha b hb hab
      have ha' := offsets_mem W 1 a ha
      have hb' := offsets_mem W 1 b hb
      refine ⟨indep_send_send ?_, indep_send_recv .., indep_recv_send .., indep_recv_recv ?_⟩
      · intro h; have := next_inj hW hr ha'.2.2 hb'.2.2 h; omega
      · intro h; have := prev_inj hW hr ha'.2.2 hb'.2.2 h; omega
  · intro r dst p hr ho
    obtain ⟨o, ho, h | h⟩ := barrier_mem.1 ho
    · have ho' := offsets_mem W 1 o ho
      simp at h
      rw [h.1]
      exact ⟨next_lt hW hr (by omega), next_ne hW hr ho'.2.2 ho'.2.1⟩
    · simp at h
  · intro r src i hr ho
    obtain ⟨o, ho, h | h⟩ := barrier_mem.1 ho
    · simp at h
    · have ho' := offsets_mem W 1 o ho
      simp at h
      rw [h.1]
      have hp := prev_lt hW hr (s := o) (by omega)
      refine ⟨hp, prev_ne hW hr ho'.2.2 ho'.2.1, .const [], ?_, ?_⟩
      · rw [barrier_mem]
        exact ⟨o, ho, Or.inl (by rw [next_prev hW hr ho'.2.2])⟩
      · simp only [lvl]; omega
  · intro r dst p hr ho
    obtain ⟨o, ho, h | h⟩ := barrier_mem.1 ho
    · have ho' := offsets_mem W 1 o ho
      simp at h
      refine ⟨0, ?_⟩
      rw [barrier_mem, h.1]
      exact ⟨o, ho, Or.inr (by rw [prev_next hW hr ho'.2.2])⟩
    · simp at h
  · intro r hr
    simp only [callBody, barrierOps_eq]
    apply pairwise_flatMap2 (offsets_sorted W 1)
    · intro a ha
      have ha' := offsets_mem W 1 a ha
      simp only [lvl, dist_next hW hr ha'.2.2, dist_prev hW hr ha'.2.2]; omega
    · intro a ha b hb hab
      have ha' := offsets_mem W 1 a ha
      have hb' := offsets_mem W 1 b hb
      simp only [lvl, dist_next hW hr ha'.2.2, dist_prev hW hr ha'.2.2, dist_next hW hr hb'.2.2, dist_prev hW hr hb'.2.2]; omega
  · intro r hr op hop
    obtain ⟨o, ho, rfl | rfl⟩ := barrier_mem.1 hop <;> have ho' := offsets_mem W 1 o ho
    · simp only [lvl, dist_next hW hr ho'.2.2]; omega
    · simp only [lvl, dist_prev hW hr ho'.2.2]; omega

/-! #### Broadcast -/

theorem loop_pow_succ (W r v key k : Nat) (rec : Bool) : bcastLoop W r v key (2 ^ (k + 1)) rec =
    if !rec then
      if v % 2 ^ (k + 1) ≠ 0 then bcastLoop W r v key (2 ^ k) rec
      else Op.recv (prevRank W r (2 ^ (k + 1))) key 0 :: bcastLoop W r v key (2 ^ k) true
    else if v + 2 ^ (k + 1) < W then
      Op.send (nextRank W r (2 ^ (k + 1))) key (.slot 0) :: bcastLoop W r v key (2 ^ k) rec
    else bcastLoop W r v key (2 ^ k) rec := by
  have h0 : 2 ^ (k + 1) ≠ 0 := Nat.pos_iff_ne_zero.1 (Nat.two_pow_pos _)
  have h1 : 2 ^ (k + 1) / 2 = 2 ^ k := by rw [Nat.pow_succ]; omega
  rw [bcastLoop, if_neg h0, h1]

theorem loop_pow_zero (W r v key : Nat) (rec : Bool) : bcastLoop W r v key (2 ^ 0) rec =
    if !rec then [Op.recv (prevRank W r 1) key 0]
    else if v + 1 < W then [Op.send (nextRank W r 1) key (.slot 0)] else [] := by
  have hz : ∀ b, bcastLoop W r v key 0 b = [] := by intro b; rw [bcastLoop]; simp
  rw [bcastLoop]
  simp [hz, Nat.mod_one]

theorem mod_pow_succ (v k : Nat) : v % 2 ^ k = 0 ↔ v % 2 ^ (k + 1) = 0 ∨ v % 2 ^ (k + 1) = 2 ^ k := by
  have h1 : v % 2 ^ k = (v % 2 ^ (k + 1)) % 2 ^ k := by
    rw [Nat.mod_mod_of_dvd]; exact Nat.pow_dvd_pow 2 (by omega)
  have h2 : v % 2 ^ (k + 1) < 2 ^ (k + 1) := Nat.mod_lt _ (Nat.two_pow_pos _)
  have h3 : 2 ^ (k + 1) = 2 * 2 ^ k := by rw [Nat.pow_succ]; omega
  rw [h1]
  generalize v % 2 ^ (k + 1) = x at *
  rw [mod2 (by omega)]
  split <;> omega

/-- What the loop consists of, as long as "received" is what the invariant says. -/
theorem loop_mem (W r v key k : Nat) (rec : Bool) (hrec : rec = true ↔ v % 2 ^ (k + 1) = 0) (op : Op) :
    op ∈ bcastLoop W r v key (2 ^ k) rec ↔
      (∃ j, j ≤ k ∧ v % 2 ^ (j + 1) = 0 ∧ v + 2 ^ j < W ∧ op = Op.send (nextRank W r (2 ^ j)) key (.slot 0)) ∨
      (∃ j, j ≤ k ∧ v % 2 ^ j = 0 ∧ v % 2 ^ (j + 1) ≠ 0 ∧ op = Op.recv (prevRank W r (2 ^ j)) key 0) := by
  induction k generalizing rec with
  | zero =>
    rw [loop_pow_zero]
    cases rec with
    | false =>
      have hv : v % 2 ^ (0 + 1) ≠ 0 := fun h => by simpa using hrec.2 h
      simp only [Bool.not_false, if_true, List.mem_cons, List.not_mem_nil, or_false]
      constructor
      · rintro rfl; right; exact ⟨0, le_refl _, by simp [Nat.mod_one], hv, rfl⟩
      · rintro (⟨j, hj, h1, _⟩ | ⟨j, hj, _, _, h⟩)
        · have : j = 0 := by omega
          subst this; exact absurd h1 hv
        · have : j = 0 := by omega
          subst this; exact h
    | true =>
      have hv : v % 2 ^ (0 + 1) = 0 := hrec.1 rfl
      simp only [Bool.not_true, Bool.false_eq_true, if_false]
      constructor
      · intro h
        split at h
        · rename_i hw
          simp at h
          left; exact ⟨0, le_refl _, hv, by simpa using hw, by simpa using h⟩
        · simp at h
      · rintro (⟨j, hj, _, h2, h⟩ | ⟨j, hj, _, h2, _⟩)
        · have : j = 0 := by omega
          subst this
          rw [if_pos (by simpa using h2)]
          simpa using h
        · have : j = 0 := by omega
          subst this; exact absurd hv h2
  | succ k ih =>
    rw [loop_pow_succ]
    have hd : ∀ j, j ≤ k + 2 → v % 2 ^ (k + 2) = 0 → v % 2 ^ j = 0 := by
      intro j hj h
      exact Nat.mod_eq_zero_of_dvd (Nat.dvd_trans (Nat.pow_dvd_pow 2 (by omega)) (Nat.dvd_of_mod_eq_zero h))
    cases rec with
    | false =>
      have hv : v % 2 ^ (k + 1 + 1) ≠ 0 := fun h => by simpa using hrec.2 h
      simp only [Bool.not_false, if_true]
      split
      · rename_i hz
        rw [ih false (by simpa using hz)]
        constructor
        · rintro (⟨j, hj, h⟩ | ⟨j, hj, h⟩)
          · left; exact ⟨j, by omega, h⟩
          · right; exact ⟨j, by omega, h⟩
        · rintro (⟨j, hj, h1, h2⟩ | ⟨j, hj, h1, h2⟩)
          · rcases Nat.lt_or_ge k j with hjk | hjk
            · have : j = k + 1 := by omega
              subst this; exact absurd h1 hv
            · left; exact ⟨j, hjk, h1, h2⟩
          · rcases Nat.lt_or_ge k j with hjk | hjk
            · have : j = k + 1 := by omega
              subst this; exact absurd h1 hz
            · right; exact ⟨j, hjk, h1, h2⟩
      · rename_i hz
        have hz : v % 2 ^ (k + 1) = 0 := by simpa using hz
        rw [List.mem_cons, ih true (by simpa using hz)]
        constructor
        · rintro (rfl | ⟨j, hj, h⟩ | ⟨j, hj, h⟩)
          · right; exact ⟨k + 1, by omega, hz, hv, rfl⟩
          · left; exact ⟨j, by omega, h⟩
          · right; exact ⟨j, by omega, h⟩
        · rintro (⟨j, hj, h1, h2⟩ | ⟨j, hj, h1, h2, h3⟩)
          · rcases Nat.lt_or_ge k j with hjk | hjk
            · have : j = k + 1 := by omega
              subst this; exact absurd h1 hv
            · right; left; exact ⟨j, hjk, h1, h2⟩
          · rcases Nat.lt_or_ge k j with hjk | hjk
            · have : j = k + 1 := by omega
              subst this; left; exact h3
            · right; right; exact ⟨j, hjk, h1, h2, h3⟩
    | true =>
      have hv : v % 2 ^ (k + 2) = 0 := hrec.1 rfl
      have hz := hd (k + 1) (by omega) hv
      simp only [Bool.not_true, Bool.false_eq_true, if_false]
      split
      · rename_i hw
        rw [List.mem_cons, ih true (by simpa using hz)]
        constructor
        · rintro (rfl | ⟨j, hj, h⟩ | ⟨j, hj, h⟩)
          · left; exact ⟨k + 1, by omega, hv, hw, rfl⟩
          · left; exact ⟨j, by omega, h⟩
          · right; exact ⟨j, by omega, h⟩
        · rintro (⟨j, hj, h1, h2, h3⟩ | ⟨j, hj, h1, h2, h3⟩)
          · rcases Nat.lt_or_ge k j with hjk | hjk
            · have : j = k + 1 := by omega
              subst this; left; exact h3
            · right; left; exact ⟨j, hjk, h1, h2, h3⟩
          · rcases Nat.lt_or_ge k j with hjk | hjk
            · have : j = k + 1 := by omega
              subst this; exact absurd hv h2
            · exact absurd (hd (j + 1) (by omega) hv) h2
      · rename_i hw
        rw [ih true (by simpa using hz)]
        constructor
        · rintro (⟨j, hj, h⟩ | ⟨j, hj, h⟩)
          · left; exact ⟨j, by omega, h⟩
          · right; exact ⟨j, by omega, h⟩
        · rintro (⟨j, hj, h1, h2, h3⟩ | ⟨j, hj, h1, h2, h3⟩)
          · rcases Nat.lt_or_ge k j with hjk | hjk
            · have : j = k + 1 := by omega
              subst this; exact absurd h2 hw
            · left; exact ⟨j, hjk, h1, h2, h3⟩
          · exact absurd (hd (j + 1) (by omega) hv) h2

/-- Operations later in the loop have smaller strides; sends and receives are on distinct channels. -/
theorem loop_pairwise (W r v key k : Nat) (rec : Bool) (hrec : rec = true ↔ v % 2 ^ (k + 1) = 0)
    (R : Op → Op → Prop)
    (h1 : ∀ a b, b < a → a ≤ k → R (.send (nextRank W r (2 ^ a)) key (.slot 0)) (.send (nextRank W r (2 ^ b)) key (.slot 0)))
    (h2 : ∀ a b, b < a → a ≤ k → R (.recv (prevRank W r (2 ^ a)) key 0) (.send (nextRank W r (2 ^ b)) key (.slot 0))) :
    (bcastLoop W r v key (2 ^ k) rec).Pairwise R := by
  induction k generalizing rec with
  | zero => rw [loop_pow_zero]; split <;> (try split) <;> simp
  | succ k ih =>
    have ih' := fun rec h => ih rec h (fun a b hab ha => h1 a b hab (by omega)) (fun a b hab ha => h2 a b hab (by omega))
    have hd : v % 2 ^ (k + 2) = 0 → v % 2 ^ (k + 1) = 0 := by
      intro h
      exact Nat.mod_eq_zero_of_dvd (Nat.dvd_trans (Nat.pow_dvd_pow 2 (by omega)) (Nat.dvd_of_mod_eq_zero h))
    -- when received, only sends follow
    have only : v % 2 ^ (k + 1) = 0 → ∀ op ∈ bcastLoop W r v key (2 ^ k) true,
        ∃ j, j ≤ k ∧ op = Op.send (nextRank W r (2 ^ j)) key (.slot 0) := by
      intro hz op ho
      rcases (loop_mem W r v key k true (by simpa using hz) op).1 ho with ⟨j, hj, _, _, h⟩ | ⟨j, hj, _, hn, _⟩
      · exact ⟨j, hj, h⟩
      · exfalso; apply hn
        exact Nat.mod_eq_zero_of_dvd (Nat.dvd_trans (Nat.pow_dvd_pow 2 (by omega)) (Nat.dvd_of_mod_eq_zero hz))
    rw [loop_pow_succ]
    cases rec with
    | false =>
      simp only [Bool.not_false, if_true]
      split
      · rename_i hz; exact ih' false (by simpa using hz)
      · rename_i hz
        have hz : v % 2 ^ (k + 1) = 0 := by simpa using hz
        rw [List.pairwise_cons]
        refine ⟨?_, ih' true (by simpa using hz)⟩
        intro op ho
        obtain ⟨j, hj, rfl⟩ := only hz op ho
        exact h2 (k + 1) j (by omega) (by omega)
    | true =>
      have hz := hd (hrec.1 rfl)
      simp only [Bool.not_true, Bool.false_eq_true, if_false]
      split
      · rw [List.pairwise_cons]
        refine ⟨?_, ih' true (by simpa using hz)⟩
        intro op ho
        obtain ⟨j, hj, rfl⟩ := only hz op ho
        exact h1 (k + 1) j (by omega) (by omega)
      · exact ih' true (by simpa using hz)

theorem ringOffset_eq {W a b : Nat} (hW : W < 2 ^ 62) (ha : a < W) (hb : b < W) : ringOffset a b W = dist W a b :=
  prevRank_eq hW hb (by omega)

theorem bitFloor_eq {W : Nat} (h : 0 < W) : bitFloor W = 2 ^ Nat.log2 W := by
  simp [bitFloor, Nat.pos_iff_ne_zero.1 h]

/-- Virtual ranks: dist root (next r s) = dist root r + s when it does not wrap, etc. -/
theorem dist_next_root {W root r s : Nat} (hW : W < 2 ^ 62) (hr : r < W) (hroot : root < W) (h : dist W root r + s < W) :
    dist W root (nextRank W r s) = dist W root r + s := by
  rw [nextRank_eq hW hr (by omega)]
  unfold dist at *
  rw [mod2 (a := r + W - root) (by omega)] at *
  split at h
  · rename_i h1
    rw [if_pos h1, mod2 (a := r + s) (by omega)]
    split <;> rw [mod2 (by omega)] <;> split <;> omega
  · rename_i h1
    rw [if_neg h1, mod2 (a := r + s) (by omega)]
    split <;> rw [mod2 (by omega)] <;> split <;> omega

theorem dist_prev_root {W root r s : Nat} (hW : W < 2 ^ 62) (hr : r < W) (hroot : root < W) (h : s ≤ dist W root r) :
    dist W root (prevRank W r s) = dist W root r - s := by
  have hd : dist W root r < W := Nat.mod_lt _ (by omega)
  rw [prevRank_eq hW hr (by omega)]
  unfold dist at *
  rw [mod2 (a := r + W - root) (by omega)] at *
  split at h
  · rename_i h1
    rw [if_pos h1, mod2 (a := r + W - s) (by omega)]
    split <;> rw [mod2 (by omega)] <;> split <;> omega
  · rename_i h1
    rw [if_neg h1, mod2 (a := r + W - s) (by omega)]
    split <;> rw [mod2 (by omega)] <;> split <;> omega

theorem vrank_rec {W v : Nat} (hv : v < W) : ((v == 0) = true ↔ v % 2 ^ (Nat.log2 W + 1) = 0) := by
  have h0 : W ≠ 0 := by omega
  have : v < 2 ^ (Nat.log2 W + 1) := Nat.lt_trans hv (by rw [← Nat.log2_lt h0]; omega)
  rw [Nat.mod_eq_of_lt this]; simp

theorem pow_le_W {W j : Nat} (h0 : 0 < W) (hj : j ≤ Nat.log2 W) : 2 ^ j ≤ W := by
  have : 2 ^ Nat.log2 W ≤ W := by rw [← Nat.le_log2 (by omega)]
  exact Nat.le_trans (Nat.pow_le_pow_right (by omega) hj) this

/-- Contents of the broadcast program. -/
theorem bcast_mem {W r key root : Nat} {input : Nat → Bytes} (hW : W < 2 ^ 62) (hr : r < W) (hroot : root < W) {op : Op} :
    op ∈ callBody W r key (.bcast root input) ↔
      op = Op.assign key 0 (input r) ∨
      (∃ j, 2 ^ j < W ∧ dist W root r % 2 ^ (j + 1) = 0 ∧ dist W root r + 2 ^ j < W ∧
        op = Op.send (nextRank W r (2 ^ j)) key (.slot 0)) ∨
      (∃ j, 2 ^ j < W ∧ dist W root r % 2 ^ j = 0 ∧ dist W root r % 2 ^ (j + 1) ≠ 0 ∧
        op = Op.recv (prevRank W r (2 ^ j)) key 0) := by
  have hd : dist W root r < W := Nat.mod_lt _ (by omega)
  simp only [callBody, bcastOps, List.mem_cons, ringOffset_eq hW hroot hr, bitFloor_eq (show 0 < W by omega)]
  rw [loop_mem W r _ key _ _ (vrank_rec hd)]
  refine or_congr Iff.rfl (or_congr ?_ ?_)
  · constructor
    · rintro ⟨j, hj, h1, h2, h3⟩; exact ⟨j, by omega, h1, h2, h3⟩
    · rintro ⟨j, hj, h1, h2, h3⟩
      refine ⟨j, ?_, h1, h2, h3⟩
      rw [Nat.le_log2 (by omega)]; omega
  · constructor
    · rintro ⟨j, hj, h1, h2, h3⟩
      refine ⟨j, ?_, h1, h2, h3⟩
      have hle : 2 ^ j ≤ dist W root r := by
        apply Nat.le_of_dvd
        · apply Nat.pos_of_ne_zero; intro h0; rw [h0] at h2; simp at h2
        · exact Nat.dvd_of_mod_eq_zero h1
      omega
    · rintro ⟨j, hj, h1, h2, h3⟩
      refine ⟨j, ?_, h1, h2, h3⟩
      rw [Nat.le_log2 (by omega)]; omega

theorem bcast_ok {W key root : Nat} {input : Nat → Bytes} (hW : W < 2 ^ 62) (hroot : root < W) : CallOK W (.bcast root input) key := by
  have hpos : ∀ j : Nat, 0 < 2 ^ j := fun j => Nat.two_pow_pos j
  have hmono : ∀ a b : Nat, b < a → 2 ^ b < 2 ^ a := fun a b h => Nat.pow_lt_pow_right (by omega) h
  have hbody : ∀ r, r < W → callBody W r key (.bcast root input) =
      Op.assign key 0 (input r) :: bcastLoop W r (dist W root r) key (2 ^ Nat.log2 W) (dist W root r == 0) := by
    intro r hr
    simp only [callBody, bcastOps, ringOffset_eq hW hroot hr, bitFloor_eq (show 0 < W by omega)]
  have hdl : ∀ r, dist W root r < W := fun r => Nat.mod_lt _ (by omega)
  have hle : ∀ r j, dist W root r % 2 ^ j = 0 → dist W root r % 2 ^ (j + 1) ≠ 0 → 2 ^ j ≤ dist W root r := by
    intro r j h1 h2
    apply Nat.le_of_dvd
    · apply Nat.pos_of_ne_zero; intro h0; rw [h0] at h2; simp at h2
    · exact Nat.dvd_of_mod_eq_zero h1
  constructor
  · intro r hr op ho
    rcases (bcast_mem hW hr hroot).1 ho with rfl | ⟨j, _, _, _, rfl⟩ | ⟨j, _, _, _, rfl⟩ <;> simp [keyOf, isComm]
  · intro r hr
    rw [hbody r hr, List.pairwise_cons]
    refine ⟨fun _ _ => indep_assign_left .., ?_⟩
    by_cases h1W : W = 1
    · subst h1W
      have hd0 : dist 1 root r = 0 := by have := hdl r; omega
      rw [hd0]
      apply loop_pairwise
      · simp
      · intro a b hab ha; have hl : Nat.log2 1 = 0 := by decide
        omega
      · intro a b hab ha; exact indep_recv_send ..
    · apply loop_pairwise _ _ _ _ _ _ (vrank_rec (hdl r))
      · intro a b hab ha
        apply indep_send_send
        have hA := pow_le_W (show 0 < W by omega) ha
        have hB := hmono a b hab
        intro h
        rcases Nat.lt_or_ge (2 ^ a) W with h' | h'
        · have := next_inj hW hr h' (by omega) h; omega
        · have e : 2 ^ a = W := by omega
          have h2 : nextRank W r W = r := by
            rw [nextRank_eq hW hr (by omega), Nat.add_mod_right, Nat.mod_eq_of_lt hr]
          rw [e, h2] at h
          exact next_ne hW hr (show 2 ^ b < W by omega) (hpos b) h.symm
      · intro a b hab ha; exact indep_recv_send ..
  · intro r dst p hr ho
    rcases (bcast_mem hW hr hroot).1 ho with h | ⟨j, hj, _, _, h⟩ | ⟨j, _, _, _, h⟩
    · simp at h
    · simp at h; rw [h.1]; exact ⟨next_lt hW hr (by omega), next_ne hW hr hj (hpos j)⟩
    · simp at h
  · intro r src i hr ho
    rcases (bcast_mem hW hr hroot).1 ho with h | ⟨j, hj, _, _, h⟩ | ⟨j, hj, h1, h2, h⟩
    · simp at h
    · simp at h
    · simp at h; rw [h.1]
      have hle' := hle r j h1 h2
      have hd := dist_prev_root hW hr hroot hle'
      have hp := prev_lt hW hr (s := 2 ^ j) (by omega)
      refine ⟨hp, prev_ne hW hr hj (hpos j), .slot 0, ?_, ?_⟩
      · rw [bcast_mem hW hp hroot]
        right; left
        refine ⟨j, hj, ?_, ?_, by rw [next_prev hW hr hj]⟩
        · rw [hd]
          rcases (mod_pow_succ (dist W root r) j).1 h1 with h3 | h3
          · exact absurd h3 h2
          · have e : dist W root r = 2 ^ (j + 1) * (dist W root r / 2 ^ (j + 1)) + 2 ^ j := by
              conv_lhs => rw [← Nat.div_add_mod (dist W root r) (2 ^ (j + 1)), h3]
            rw [e, Nat.add_sub_cancel, Nat.mul_mod_right]
        · rw [hd]; have := hdl r; omega
      · simp only [lvl]; omega
  · intro r dst p hr ho
    rcases (bcast_mem hW hr hroot).1 ho with h | ⟨j, hj, h1, h2, h⟩ | ⟨j, _, _, _, h⟩
    · simp at h
    · simp at h; rw [h.1]
      refine ⟨0, ?_⟩
      have hn := next_lt hW hr (s := 2 ^ j) (by omega)
      have hd := dist_next_root hW hr hroot h2
      rw [bcast_mem hW hn hroot]
      right; right
      have e : dist W root r = 2 ^ (j + 1) * (dist W root r / 2 ^ (j + 1)) := by
        conv_lhs => rw [← Nat.div_add_mod (dist W root r) (2 ^ (j + 1)), h1, Nat.add_zero]
      have e2 : (dist W root r + 2 ^ j) % 2 ^ (j + 1) = 2 ^ j := by
        rw [e, Nat.mul_add_mod, Nat.mod_eq_of_lt (hmono (j + 1) j (by omega))]
      refine ⟨j, hj, ?_, ?_, by rw [prev_next hW hr hj]⟩
      · rw [hd, mod_pow_succ]; exact Or.inr e2
      · rw [hd, e2]; have := hpos j; omega
    · simp at h
  · intro r hr
    rw [hbody r hr, List.pairwise_cons]
    refine ⟨fun _ _ => by simp [lvl], ?_⟩
    have lv : ∀ a b, b < a → a ≤ Nat.log2 W → W - dist W r (nextRank W r (2 ^ a)) ≤ W - dist W r (nextRank W r (2 ^ b)) ∨ 2 ^ a = W := by
      intro a b hab ha
      have hA := pow_le_W (show 0 < W by omega) ha
      have hB := hmono a b hab
      rcases Nat.lt_or_ge (2 ^ a) W with h' | h'
      · left; rw [dist_next hW hr h', dist_next hW hr (by omega)]; omega
      · right; omega
    -- the first stride can equal W, but then nobody sends with it
    have key' : ∀ x ∈ bcastLoop W r (dist W root r) key (2 ^ Nat.log2 W) (dist W root r == 0), True := fun _ _ => trivial
    by_cases hpw : 2 ^ Nat.log2 W = W
    · -- top stride is W itself: no operation there
      cases hl : Nat.log2 W with
      | zero =>
        rw [loop_pow_zero]; split <;> (try split) <;> simp
      | succ k =>
        have hpk : 2 ^ (k + 1) = W := by rw [← hl]; exact hpw
        have hz : dist W root r % 2 ^ (k + 1) = dist W root r := by rw [hpk]; exact Nat.mod_eq_of_lt (hdl r)
        have hnw : ¬ (dist W root r + 2 ^ (k + 1) < W) := by omega
        have hskip : bcastLoop W r (dist W root r) key (2 ^ (k + 1)) (dist W root r == 0) =
            bcastLoop W r (dist W root r) key (2 ^ k) (dist W root r == 0) := by
          rw [loop_pow_succ, if_neg hnw, hz]
          by_cases h0 : dist W root r = 0
          · simp [h0]
          · have : (dist W root r == 0) = false := by simpa using h0
            simp [this, h0]
        rw [hskip]
        apply loop_pairwise _ _ _ _ _ _ (by rw [hz]; simp)
        · intro a b hab ha
          have hA : 2 ^ a < W := by rw [← hpk]; exact hmono _ _ (by omega)
          have hB := hmono a b hab
          simp only [lvl, dist_next hW hr hA, dist_next hW hr (show 2 ^ b < W by omega)]; omega
        · intro a b hab ha
          have hA : 2 ^ a < W := by rw [← hpk]; exact hmono _ _ (by omega)
          have hB := hmono a b hab
          simp only [lvl, dist_prev hW hr hA, dist_next hW hr (show 2 ^ b < W by omega)]; omega
    · apply loop_pairwise _ _ _ _ _ _ (vrank_rec (hdl r))
      · intro a b hab ha
        have hA : 2 ^ a < W := by
          have h1 := pow_le_W (show 0 < W by omega) (le_refl (Nat.log2 W))
          have h2 := Nat.pow_le_pow_right (show 0 < 2 by omega) ha
          omega
        have hB := hmono a b hab
        simp only [lvl, dist_next hW hr hA, dist_next hW hr (show 2 ^ b < W by omega)]; omega
      · intro a b hab ha
        have hA : 2 ^ a < W := by
          have h1 := pow_le_W (show 0 < W by omega) (le_refl (Nat.log2 W))
          have h2 := Nat.pow_le_pow_right (show 0 < 2 by omega) ha
          omega
        have hB := hmono a b hab
        simp only [lvl, dist_prev hW hr hA, dist_next hW hr (show 2 ^ b < W by omega)]; omega
  · intro r hr op ho
    rcases (bcast_mem hW hr hroot).1 ho with rfl | ⟨j, hj, _, _, rfl⟩ | ⟨j, hj, _, _, rfl⟩
    · simp [lvl]
    · simp only [lvl]; omega
    · simp only [lvl]; omega

/-! #### Gather, AllGather, Scatter -/

/-- The receiving loop of gather / allgather. -/
def collectLoop (W r key : Nat) (v : Bytes) : List Op :=
  (List.range W).map fun idx => if idx = r then Op.assign key idx v else Op.recv idx key idx

theorem collect_mem {W r key : Nat} {v : Bytes} {op : Op} : op ∈ collectLoop W r key v ↔
    (r < W ∧ op = Op.assign key r v) ∨ ∃ idx, idx < W ∧ idx ≠ r ∧ op = Op.recv idx key idx := by
  simp only [collectLoop, List.mem_map, List.mem_range]
  constructor
  · rintro ⟨a, ha, h⟩
    by_cases har : a = r
    · subst har; simp at h; left; exact ⟨ha, h.symm⟩
    · rw [if_neg har] at h; right; exact ⟨a, ha, har, h.symm⟩
  · rintro (⟨h1, h2⟩ | ⟨a, h1, h2, h3⟩)
    · exact ⟨r, h1, by simp [h2]⟩
    · exact ⟨a, h1, by simp [h2, h3]⟩

theorem collect_pairwise {W r key : Nat} {v : Bytes} : (collectLoop W r key v).Pairwise Indep := by
  unfold collectLoop
  rw [List.pairwise_map]
  refine List.Pairwise.imp ?_ (List.nodup_range (n := W))
  intro a b hab
  split
  · exact indep_assign_left ..
  · split
    · exact indep_assign_right ..
    · exact indep_recv_recv hab

/-- The sending loop of allgather / scatter. -/
def sendLoop (W r key : Nat) (f : Nat → Bytes) : List Op :=
  ((List.range W).filter (· ≠ r)).map (fun idx => Op.send idx key (.const (f idx)))

theorem sendLoop_mem {W r key : Nat} {f : Nat → Bytes} {op : Op} : op ∈ sendLoop W r key f ↔
    ∃ idx, idx < W ∧ idx ≠ r ∧ op = Op.send idx key (.const (f idx)) := by
  simp only [sendLoop, List.mem_map, List.mem_filter, List.mem_range, decide_eq_true_eq]
  constructor
  · rintro ⟨a, ⟨h1, h2⟩, h3⟩; exact ⟨a, h1, h2, h3.symm⟩
  · rintro ⟨a, h1, h2, h3⟩; exact ⟨a, ⟨h1, h2⟩, h3.symm⟩

theorem sendLoop_pairwise {W r key : Nat} {f : Nat → Bytes} : (sendLoop W r key f).Pairwise Indep := by
  unfold sendLoop
  rw [List.pairwise_map]
  refine List.Pairwise.imp ?_ ((List.nodup_range (n := W)).filter _)
  intro a b hab
  exact indep_send_send hab

theorem gather_body (W r key root : Nat) (input : Nat → Bytes) : callBody W r key (.gather root input) =
    if root = r then collectLoop W r key (input r) else [Op.send root key (.const (input r))] := rfl
theorem allgather_body (W r key : Nat) (input : Nat → Bytes) : callBody W r key (.allgather input) =
    sendLoop W r key (fun _ => input r) ++ collectLoop W r key (input r) := rfl
theorem scatter_body (W r key root : Nat) (inputs : Nat → List Bytes) (h : (inputs root).length = W) :
    callBody W r key (.scatter root inputs) =
    if root = r then sendLoop W r key (fun i => (inputs r).getD i []) ++ [Op.assign key 0 ((inputs r).getD root [])]
    else [Op.recv root key 0] := by
  simp only [callBody, scatterOps]
  split
  · rename_i h'; subst h'; rw [if_pos h]; rfl
  · rfl

theorem gather_ok {W key root : Nat} {input : Nat → Bytes} (hroot : root < W) : CallOK W (.gather root input) key := by
  constructor
  · intro r hr op ho
    rw [gather_body] at ho
    split at ho
    · rcases collect_mem.1 ho with ⟨_, rfl⟩ | ⟨a, _, _, rfl⟩ <;> simp [keyOf, isComm]
    · simp at ho; subst ho; simp [keyOf, isComm]
  · intro r hr; rw [gather_body]; split
    · exact collect_pairwise
    · simp
  · intro r dst p hr ho
    rw [gather_body] at ho
    split at ho
    · rcases collect_mem.1 ho with ⟨_, h⟩ | ⟨a, _, _, h⟩ <;> simp at h
    · rename_i hne
      simp at ho; rw [ho.1]; exact ⟨hroot, hne⟩
  · intro r src i hr ho
    rw [gather_body] at ho
    split at ho
    · rename_i he
      rcases collect_mem.1 ho with ⟨_, h⟩ | ⟨a, h1, h2, h⟩
      · simp at h
      · simp at h
        obtain ⟨e1, e2⟩ := h
        subst e2; subst e1
        refine ⟨h1, h2, .const (input src), ?_, by simp [lvl]⟩
        rw [gather_body, if_neg (by omega)]
        simp [he]
    · simp at ho
  · intro r dst p hr ho
    rw [gather_body] at ho
    split at ho
    · rcases collect_mem.1 ho with ⟨_, h⟩ | ⟨a, _, _, h⟩ <;> simp at h
    · rename_i hne
      simp at ho
      refine ⟨r, ?_⟩
      rw [gather_body, ho.1, if_pos rfl, collect_mem]
      exact Or.inr ⟨r, hr, fun h => hne h.symm, rfl⟩
  · intro r hr; rw [gather_body]; split
    · apply List.pairwise_of_forall_mem_list
      intro a ha b hb
      rcases collect_mem.1 ha with ⟨_, rfl⟩ | ⟨x, _, _, rfl⟩ <;> rcases collect_mem.1 hb with ⟨_, rfl⟩ | ⟨y, _, _, rfl⟩ <;> simp [lvl]
    · simp
  · intro r hr op ho
    rw [gather_body] at ho
    split at ho
    · rcases collect_mem.1 ho with ⟨_, rfl⟩ | ⟨a, _, _, rfl⟩ <;> simp [lvl]
    · simp at ho; subst ho; simp [lvl]

theorem allgather_ok {W key : Nat} {input : Nat → Bytes} : CallOK W (.allgather input) key := by
  have hm : ∀ r op, op ∈ callBody W r key (.allgather input) ↔
      (∃ idx, idx < W ∧ idx ≠ r ∧ op = Op.send idx key (.const (input r))) ∨ (r < W ∧ op = Op.assign key r (input r)) ∨
      ∃ idx, idx < W ∧ idx ≠ r ∧ op = Op.recv idx key idx := by
    intro r op
    rw [allgather_body, List.mem_append, sendLoop_mem, collect_mem]
  constructor
  · intro r hr op ho
    rcases (hm r op).1 ho with ⟨_, _, _, rfl⟩ | ⟨_, rfl⟩ | ⟨_, _, _, rfl⟩ <;> simp [keyOf, isComm]
  · intro r hr
    rw [allgather_body, List.pairwise_append]
    refine ⟨sendLoop_pairwise, collect_pairwise, ?_⟩
    intro a ha b hb
    obtain ⟨x, _, _, rfl⟩ := sendLoop_mem.1 ha
    rcases collect_mem.1 hb with ⟨_, rfl⟩ | ⟨y, _, _, rfl⟩
    · exact indep_assign_right ..
    · exact indep_send_recv ..
  · intro r dst p hr ho
    rcases (hm r _).1 ho with ⟨x, h1, h2, h⟩ | ⟨_, h⟩ | ⟨_, _, _, h⟩
    · simp at h; rw [h.1]; exact ⟨h1, h2⟩
    · simp at h
    · simp at h
  · intro r src i hr ho
    rcases (hm r _).1 ho with ⟨x, h1, h2, h⟩ | ⟨_, h⟩ | ⟨x, h1, h2, h⟩
    · simp at h
    · simp at h
    · simp at h
      obtain ⟨e1, e2⟩ := h
      subst e2; subst e1
      exact ⟨h1, h2, .const (input src), (hm _ _).2 (Or.inl ⟨r, hr, fun h => h2 h.symm, rfl⟩), by simp [lvl]⟩
  · intro r dst p hr ho
    rcases (hm r _).1 ho with ⟨x, h1, h2, h⟩ | ⟨_, h⟩ | ⟨x, h1, h2, h⟩
    · simp at h
      exact ⟨r, (hm _ _).2 (Or.inr (Or.inr ⟨r, hr, fun e => h2 (by rw [← h.1, e]), rfl⟩))⟩
    · simp at h
    · simp at h
  · intro r hr
    rw [allgather_body, List.pairwise_append]
    refine ⟨?_, ?_, ?_⟩
    · apply List.pairwise_of_forall_mem_list
      intro a ha b hb
      obtain ⟨x, _, _, rfl⟩ := sendLoop_mem.1 ha
      obtain ⟨y, _, _, rfl⟩ := sendLoop_mem.1 hb
      simp [lvl]
    · apply List.pairwise_of_forall_mem_list
      intro a ha b hb
      rcases collect_mem.1 ha with ⟨_, rfl⟩ | ⟨x, _, _, rfl⟩ <;> rcases collect_mem.1 hb with ⟨_, rfl⟩ | ⟨y, _, _, rfl⟩ <;> simp [lvl]
    · intro a ha b hb
      obtain ⟨x, _, _, rfl⟩ := sendLoop_mem.1 ha
      simp [lvl]
  · intro r hr op ho
    rcases (hm r op).1 ho with ⟨_, _, _, rfl⟩ | ⟨_, rfl⟩ | ⟨_, _, _, rfl⟩ <;> simp [lvl]

theorem scatter_ok {W key root : Nat} {inputs : Nat → List Bytes} (hroot : root < W) (hl : (inputs root).length = W) :
    CallOK W (.scatter root inputs) key := by
  have hm : ∀ r op, op ∈ callBody W r key (.scatter root inputs) ↔
      (root = r ∧ ((∃ idx, idx < W ∧ idx ≠ r ∧ op = Op.send idx key (.const ((inputs r).getD idx []))) ∨
        op = Op.assign key 0 ((inputs r).getD root []))) ∨ (root ≠ r ∧ op = Op.recv root key 0) := by
    intro r op
    rw [scatter_body _ _ _ _ _ hl]
    split
    · rename_i h
      rw [List.mem_append, sendLoop_mem, List.mem_singleton]
      simp [h]
    · rename_i h; simp [h]
  constructor
  · intro r hr op ho
    rcases (hm r op).1 ho with ⟨_, ⟨_, _, _, rfl⟩ | rfl⟩ | ⟨_, rfl⟩ <;> simp [keyOf, isComm]
  · intro r hr
    rw [scatter_body _ _ _ _ _ hl]
    split
    · rw [List.pairwise_append]
      refine ⟨sendLoop_pairwise, by simp, ?_⟩
      intro a ha b hb
      simp at hb; subst hb
      exact indep_assign_right ..
    · simp
  · intro r dst p hr ho
    rcases (hm r _).1 ho with ⟨_, ⟨x, h1, h2, h⟩ | h⟩ | ⟨_, h⟩
    · simp at h; rw [h.1]; exact ⟨h1, h2⟩
    · simp at h
    · simp at h
  · intro r src i hr ho
    rcases (hm r _).1 ho with ⟨_, ⟨x, h1, h2, h⟩ | h⟩ | ⟨hne, h⟩
    · simp at h
    · simp at h
    · simp at h
      obtain ⟨rfl, _⟩ := h
      exact ⟨hroot, hne, .const ((inputs src).getD r []), (hm _ _).2 (Or.inl ⟨rfl, Or.inl ⟨r, hr, fun h => hne h.symm, rfl⟩⟩), by simp [lvl]⟩
  · intro r dst p hr ho
    rcases (hm r _).1 ho with ⟨he, ⟨x, h1, h2, h⟩ | h⟩ | ⟨_, h⟩
    · simp at h
      refine ⟨0, (hm _ _).2 (Or.inr ⟨?_, by rw [he]⟩)⟩
      rw [he, h.1]; exact fun e => h2 e.symm
    · simp at h
    · simp at h
  · intro r hr
    rw [scatter_body _ _ _ _ _ hl]
    split
    · rw [List.pairwise_append]
      refine ⟨?_, by simp, ?_⟩
      · apply List.pairwise_of_forall_mem_list
        intro a ha b hb
        obtain ⟨x, _, _, rfl⟩ := sendLoop_mem.1 ha
        obtain ⟨y, _, _, rfl⟩ := sendLoop_mem.1 hb
        simp [lvl]
      · intro a ha b hb
        obtain ⟨x, _, _, rfl⟩ := sendLoop_mem.1 ha
        simp [lvl]
    · simp
  · intro r hr op ho
    rcases (hm r op).1 ho with ⟨_, ⟨_, _, _, rfl⟩ | rfl⟩ | ⟨_, rfl⟩ <;> simp [lvl]

theorem call_ok {W key : Nat} (hW : W < 2 ^ 62) (c : Call) (hc : c.Valid W) : CallOK W c key := by
  cases c with
  | barrier => exact barrier_ok hW
  | bcast root input => exact bcast_ok hW hc
  | gather root input => exact gather_ok hc
  | allgather input => exact allgather_ok
  | scatter root inputs => exact scatter_ok hc.1 hc.2

end Yacl.Link
