import Verif.Link.CollectiveCalls
import Mathlib.Data.Nat.Find

/-! Property theorems C17-C20: collectives under every schedule.

`cs` is the list of collective calls all parties make (in that order, call `k` has number `k`), `W` the world size. All
theorems are about every state reachable under every interleaving of the parties (`Reach`). -/
namespace Yacl.Link
open Yacl.Channel (Bytes)

/-- The program of every party: the same calls in the same order. -/
abbrev progOf (W : Nat) (cs : List Call) : Nat → List Op := fun r => script W r 0 cs

/-- Party `r` has entered / returned from call number `k`. -/
def Entered (W : Nat) (cs : List Call) (st : World) (r k : Nat) : Prop := Op.call k ∈ (progOf W cs r).take (st.pc r)
def Returned (W : Nat) (cs : List Call) (st : World) (r k : Nat) : Prop := Op.ret k ∈ (progOf W cs r).take (st.pc r)

/-- Everybody uses valid roots and the scatter root has one input per party; the world is not absurdly large. -/
structure ValidCalls (W : Nat) (cs : List Call) : Prop where
  small : W < 2 ^ 62
  valid : ∀ c ∈ cs, c.Valid W

/-! ### Structure of scripts -/

theorem script_mem {W r : Nat} {op : Op} : ∀ (k : Nat) (cs : List Call), op ∈ script W r k cs ↔
    ∃ i c, cs[i]? = some c ∧ op ∈ callOps W r (k + i) c
  | k, [] => by simp [script]
  | k, c :: cs => by
    rw [script, List.mem_append, script_mem (k + 1) cs]
    constructor
    · rintro (h | ⟨i, c', h1, h2⟩)
      · exact ⟨0, c, rfl, h⟩
      · exact ⟨i + 1, c', by simpa using h1, by rw [show k + (i + 1) = k + 1 + i by omega]; exact h2⟩
    · rintro ⟨i, c', h1, h2⟩
      cases i with
      | zero => simp at h1; subst h1; exact Or.inl h2
      | succ i => exact Or.inr ⟨i, c', by simpa using h1, by rw [show k + 1 + i = k + (i + 1) by omega]; exact h2⟩

theorem callOps_mem {W r k : Nat} {c : Call} {op : Op} : op ∈ callOps W r k c ↔
    op = .call k ∨ op ∈ callBody W r k c ∨ op = .ret k := by
  simp [callOps]

theorem callOps_key {W r k : Nat} {c : Call} (hok : CallOK W c k) (hr : r < W) {op : Op} (h : op ∈ callOps W r k c) :
    keyOf op = k := by
  rcases callOps_mem.1 h with rfl | h | rfl
  · rfl
  · exact (hok.comm r hr op h).1
  · rfl

theorem script_key {W r k : Nat} {cs : List Call} (hW : W < 2 ^ 62) (hv : ∀ c ∈ cs, c.Valid W) (hr : r < W) {op : Op}
    (h : op ∈ script W r k cs) : k ≤ keyOf op ∧ ∃ c, cs[keyOf op - k]? = some c ∧ op ∈ callOps W r (keyOf op) c := by
  obtain ⟨i, c, h1, h2⟩ := (script_mem k cs).1 h
  have := callOps_key (call_ok hW c (hv c (List.mem_of_getElem? h1))) hr h2
  rw [this]
  exact ⟨by omega, c, by rw [show k + i - k = i by omega]; exact h1, h2⟩

theorem body_not_special {W r k : Nat} {c : Call} (hok : CallOK W c k) (hr : r < W) (j : Nat) :
    Op.call j ∉ callBody W r k c ∧ Op.ret j ∉ callBody W r k c ∧ Op.fail ∉ callBody W r k c :=
  ⟨fun h => (hok.comm r hr _ h).2, fun h => (hok.comm r hr _ h).2, fun h => (hok.comm r hr _ h).2⟩

theorem callOps_indep {W r k : Nat} {c : Call} (hok : CallOK W c k) (hr : r < W) : (callOps W r k c).Pairwise Indep := by
  unfold callOps
  rw [List.pairwise_cons, List.pairwise_append]
  refine ⟨?_, hok.indep r hr, by simp, ?_⟩
  · intro x _; constructor <;> simp [sendsTo, recvsFrom]
  · intro a _ b hb; simp at hb; subst hb; constructor <;> simp [sendsTo, recvsFrom]

theorem callOps_sorted {W r k : Nat} {c : Call} (hok : CallOK W c k) (hr : r < W) :
    (callOps W r k c).Pairwise (fun a b => lvl W c r a ≤ lvl W c r b) := by
  unfold callOps
  rw [List.pairwise_cons, List.pairwise_append]
  refine ⟨?_, hok.sorted r hr, by simp, ?_⟩
  · intro x _; simp [lvl]
  · intro a ha b hb; simp at hb; subst hb; exact hok.bound r hr a ha

theorem callOps_bound {W r k : Nat} {c : Call} (hok : CallOK W c k) (hr : r < W) {op : Op} (h : op ∈ callOps W r k c) :
    lvl W c r op ≤ 2 * W + 1 := by
  rcases callOps_mem.1 h with rfl | h | rfl
  · simp [lvl]
  · exact hok.bound r hr op h
  · simp [lvl]

/-- Global priority: call number first, level inside the call second. -/
def prioOf (W : Nat) (cs : List Call) (r : Nat) (op : Op) : Nat :=
  keyOf op * (2 * W + 2) + (match cs[keyOf op]? with | some c => lvl W c r op | none => 0)

theorem script_pairwise {W r : Nat} {R : Op → Op → Prop} (hW : W < 2 ^ 62) (hr : r < W) :
    ∀ (k : Nat) (cs : List Call), (∀ c ∈ cs, c.Valid W) →
    (∀ i c, cs[i]? = some c → (callOps W r (k + i) c).Pairwise R) →
    (∀ a ∈ script W r k cs, ∀ b ∈ script W r k cs, keyOf a < keyOf b → R a b) → (script W r k cs).Pairwise R
  | k, [], _, _, _ => by simp [script]
  | k, c :: cs, hv, h1, h2 => by
    rw [script, List.pairwise_append]
    refine ⟨h1 0 c rfl, ?_, ?_⟩
    · apply script_pairwise hW hr (k + 1) cs (fun c hc => hv c (by simp [hc]))
      · intro i c' hc; have := h1 (i + 1) c' (by simpa using hc)
        rw [show k + 1 + i = k + (i + 1) by omega]; exact this
      · intro a ha b hb; exact h2 a (by rw [script]; simp [ha]) b (by rw [script]; simp [hb])
    · intro a ha b hb
      apply h2 a (by rw [script]; simp [ha]) b (by rw [script]; simp [hb])
      have e1 := callOps_key (call_ok hW c (hv c (by simp))) hr ha
      have e2 := (script_key hW (fun c hc => hv c (by simp [hc])) hr hb).1
      omega

theorem matched_of_valid {W : Nat} {cs : List Call} (h : ValidCalls W cs) : Matched W (progOf W cs) (prioOf W cs) := by
  have hW := h.small
  have hok : ∀ i c, cs[i]? = some c → CallOK W c i := fun i c hc => call_ok hW c (h.valid c (List.mem_of_getElem? hc))
  -- a communication operation of a script sits in the body of its call
  have inBody : ∀ r op, r < W → isComm op → op ∈ progOf W cs r → ∃ c, cs[keyOf op]? = some c ∧ op ∈ callBody W r (keyOf op) c := by
    intro r op hr hc ho
    obtain ⟨_, c, h1, h2⟩ := script_key hW h.valid hr ho
    refine ⟨c, by simpa using h1, ?_⟩
    rcases callOps_mem.1 h2 with h3 | h3 | h3
    · rw [h3] at hc; exact absurd hc (by simp [isComm])
    · exact h3
    · rw [h3] at hc; exact absurd hc (by simp [isComm])
  have intoScript : ∀ r op i c, cs[i]? = some c → op ∈ callBody W r i c → op ∈ progOf W cs r := by
    intro r op i c hc ho
    rw [progOf, script_mem]
    exact ⟨i, c, hc, by rw [Nat.zero_add]; exact callOps_mem.2 (Or.inr (Or.inl ho))⟩
  constructor
  · intro r hr
    apply script_pairwise hW hr 0 cs h.valid
    · intro i c hc; rw [Nat.zero_add]; exact callOps_indep (hok i c hc) hr
    · intro a _ b _ hab; exact indep_of_key (by omega)
  · intro r dst key p ho hr
    obtain ⟨c, h1, h2⟩ := inBody r (.send dst key p) hr trivial ho
    exact (hok key c h1).valid_send r dst p hr h2
  · intro r src key i ho hr
    obtain ⟨c, h1, h2⟩ := inBody r (.recv src key i) hr trivial ho
    simp only [keyOf] at h1 h2
    obtain ⟨g1, g2, p, g3, g4⟩ := (hok key c h1).matched r src i hr h2
    refine ⟨g1, g2, p, intoScript _ _ _ c h1 g3, ?_⟩
    simp only [prioOf, keyOf, h1]; omega
  · intro r dst key p ho hr
    obtain ⟨c, h1, h2⟩ := inBody r (.send dst key p) hr trivial ho
    simp only [keyOf] at h1 h2
    obtain ⟨i, hi⟩ := (hok key c h1).matched' r dst p hr h2
    exact ⟨i, intoScript _ _ _ c h1 hi⟩
  · intro r hr
    apply script_pairwise hW hr 0 cs h.valid
    · intro i c hc
      rw [Nat.zero_add]
      refine List.Pairwise.imp_of_mem ?_ (callOps_sorted (hok i c hc) hr)
      intro a b ha hb hab
      have ea := callOps_key (hok i c hc) hr ha
      have eb := callOps_key (hok i c hc) hr hb
      simp only [prioOf, ea, eb, hc]; omega
    · intro a ha b hb hab
      obtain ⟨_, ca, a1, a2⟩ := script_key hW h.valid hr ha
      have a1 : cs[keyOf a]? = some ca := by simpa using a1
      have ba := callOps_bound (hok _ ca a1) hr a2
      simp only [prioOf, a1]
      have hm : (keyOf a + 1) * (2 * W + 2) ≤ keyOf b * (2 * W + 2) := Nat.mul_le_mul_right _ hab
      rw [Nat.add_mul] at hm
      omega
  · intro r hr hf
    obtain ⟨i, c, h1, h2⟩ := (script_mem 0 cs).1 hf
    rw [Nat.zero_add] at h2
    rcases callOps_mem.1 h2 with h3 | h3 | h3
    · simp at h3
    · exact (body_not_special (hok i c h1) hr 0).2.2 h3
    · simp at h3

/-! ### Values -/

/-- Content of the message `src → dst` of call `key`. -/
def contents (cs : List Call) (src dst key : Nat) : Bytes :=
  match cs[key]? with
  | some c => msgOf c src dst
  | none => []

def writes (key idx : Nat) (op : Op) : Prop := (∃ v, op = .assign key idx v) ∨ ∃ src, op = .recv src key idx

theorem effect_other {M : Nat → Nat → Nat → Bytes} {r key idx : Nat} {s : Slots} {op : Op} (h : ¬ writes key idx op) :
    slotEffect M r s op key idx = s key idx := by
  unfold slotEffect
  split
  · rename_i k i v
    simp only [Slots.set]
    rw [if_neg]
    rintro ⟨rfl, rfl⟩; exact h (Or.inl ⟨v, rfl⟩)
  · rename_i src k i
    simp only [Slots.set]
    rw [if_neg]
    rintro ⟨rfl, rfl⟩; exact h (Or.inr ⟨src, rfl⟩)
  · rfl

/-- Value an operation stores. -/
def Stores (M : Nat → Nat → Nat → Bytes) (r key idx : Nat) (v : Bytes) (op : Op) : Prop :=
  op = .assign key idx v ∨ ∃ src, op = .recv src key idx ∧ M src r key = v

theorem effect_stores {M : Nat → Nat → Nat → Bytes} {r key idx : Nat} {s : Slots} {v : Bytes} {op : Op}
    (h : Stores M r key idx v op) : slotEffect M r s op key idx = some v := by
  rcases h with rfl | ⟨src, rfl, h⟩
  · simp [slotEffect, Slots.set]
  · simp [slotEffect, Slots.set, h]

/-- If all writes to a slot store `v` then the slot is `v` as soon as there is one (or it was `v` before). -/
theorem fold_const {M : Nat → Nat → Nat → Bytes} {r key idx : Nat} {v : Bytes} (l : List Op) (s : Slots)
    (hall : ∀ op ∈ l, writes key idx op → Stores M r key idx v op)
    (hone : s key idx = some v ∨ ∃ op ∈ l, writes key idx op) :
    l.foldl (slotEffect M r) s key idx = some v := by
  induction l generalizing s with
  | nil => rcases hone with h | ⟨_, h, _⟩
           · exact h
           · simp at h
  | cons op l ih =>
    rw [List.foldl_cons]
    by_cases hw : writes key idx op
    · exact ih _ (fun o ho => hall o (by simp [ho])) (Or.inl (effect_stores (hall op (by simp) hw)))
    · apply ih _ (fun o ho => hall o (by simp [ho]))
      rcases hone with h | ⟨o, ho, hw'⟩
      · left; rw [effect_other hw]; exact h
      · rcases List.mem_cons.1 ho with rfl | ho
        · exact absurd hw' hw
        · right; exact ⟨o, ho, hw'⟩

/-- No writes: unchanged. -/
theorem fold_none {M : Nat → Nat → Nat → Bytes} {r key idx : Nat} (l : List Op) (s : Slots)
    (hall : ∀ op ∈ l, ¬ writes key idx op) : l.foldl (slotEffect M r) s key idx = s key idx := by
  induction l generalizing s with
  | nil => rfl
  | cons op l ih =>
    rw [List.foldl_cons, ih _ (fun o ho => hall o (by simp [ho])), effect_other (hall op (by simp))]

theorem writes_key {key idx : Nat} {op : Op} (h : writes key idx op) : keyOf op = key := by
  rcases h with ⟨v, rfl⟩ | ⟨src, rfl⟩ <;> rfl

/-- In the broadcast loop a send is preceded by a receive, unless the party has the data from the start. -/
theorem loop_send_after_recv (W r v key stride : Nat) (rec : Bool) :
    ∀ A op B, bcastLoop W r v key stride rec = A ++ op :: B → (∃ d p, op = Op.send d key p) →
    rec = true ∨ ∃ src, Op.recv src key 0 ∈ A := by
  fun_induction bcastLoop W r v key stride rec with
  | case1 => intro A op B h; simp at h
  | case2 stride rec h0 hr hm ih => exact ih
  | case3 stride rec h0 hr hm ih =>
    rintro A op B h ⟨d, p, rfl⟩
    cases A with
    | nil => simp at h
    | cons a A => simp at h; right; exact ⟨prevRank W r stride, by rw [← h.1]; simp⟩
  | case4 stride rec h0 hr hw ih => intros; left; simpa using hr
  | case5 stride rec h0 hr hw ih => intros; left; simpa using hr

theorem sendsOK {W : Nat} {cs : List Call} (h : ValidCalls W cs) : SendsOK W (progOf W cs) (contents cs) := by
  have hW := h.small
  have hok : ∀ i c, cs[i]? = some c → CallOK W c i := fun i c hc => call_ok hW c (h.valid c (List.mem_of_getElem? hc))
  -- position of an operation inside the script
  have split : ∀ r, r < W → ∀ (cs' : List Call) (k n : Nat) (op : Op), (∀ c ∈ cs', c.Valid W) → isComm op →
      (script W r k cs')[n]? = some op →
      ∃ i c A B, cs'[i]? = some c ∧ callBody W r (k + i) c = A ++ op :: B ∧
        ∃ P, (script W r k cs').take n = P ++ A := by
    intro r hr cs'
    induction cs' with
    | nil => intro k n op _ _ h; simp [script] at h
    | cons c cs' ih =>
      intro k n op hv hc hn
      rw [script] at hn ⊢
      rcases Nat.lt_or_ge n (callOps W r k c).length with hl | hl
      · rw [List.getElem?_append_left hl] at hn
        rw [List.take_append_of_le_length (by omega)]
        unfold callOps at hn hl ⊢
        cases n with
        | zero => simp at hn; rw [← hn] at hc; exact absurd hc (by simp [isComm])
        | succ n =>
          simp only [List.getElem?_cons_succ, List.length_cons, List.length_append, List.length_nil] at hn hl
          rcases Nat.lt_or_ge n (callBody W r k c).length with hb | hb
          · rw [List.getElem?_append_left hb] at hn
            obtain ⟨hb', he⟩ := List.getElem?_eq_some_iff.1 hn
            refine ⟨0, c, (callBody W r k c).take n, (callBody W r k c).drop (n + 1), rfl, ?_, [Op.call k], ?_⟩
            · rw [Nat.add_zero, ← he, ← List.drop_eq_getElem_cons hb', List.take_append_drop]
            · rw [List.take_succ_cons, List.take_append_of_le_length (by omega)]; rfl
          · have : n = (callBody W r k c).length := by omega
            rw [this] at hn
            simp at hn
            rw [← hn] at hc; exact absurd hc (by simp [isComm])
      · rw [List.getElem?_append_right hl] at hn
        obtain ⟨i, c', A, B, h1, h2, P, h3⟩ := ih (k + 1) _ op (fun c hc => hv c (by simp [hc])) hc hn
        refine ⟨i + 1, c', A, B, by simpa using h1, by rw [show k + (i + 1) = k + 1 + i by omega]; exact h2,
          callOps W r k c ++ P, ?_⟩
        rw [List.take_append, List.take_of_length_le hl, h3, List.append_assoc]
  intro r n dst key p hr hn
  obtain ⟨i, c, A, B, h1, h2, P, h3⟩ := split r hr cs 0 n (.send dst key p) h.valid trivial hn
  rw [Nat.zero_add] at h2
  have hmem : Op.send dst key p ∈ callBody W r i c := by rw [h2]; simp
  have hkey : key = i := ((hok i c h1).comm r hr _ hmem).1
  subst hkey
  have hcont : contents cs r dst key = msgOf c r dst := by simp [contents, h1]
  rw [hcont]
  cases c with
  | barrier =>
    obtain ⟨o, _, h | h⟩ := barrier_mem.1 hmem
    · simp at h; rw [h.2]; rfl
    · simp at h
  | gather root input =>
    rw [gather_body] at hmem
    split at hmem
    · rcases collect_mem.1 hmem with ⟨_, h⟩ | ⟨a, _, _, h⟩ <;> simp at h
    · simp at hmem; rw [hmem.2]; rfl
  | allgather input =>
    rw [allgather_body, List.mem_append, sendLoop_mem, collect_mem] at hmem
    rcases hmem with ⟨_, _, _, h⟩ | ⟨_, h⟩ | ⟨_, _, _, h⟩
    · simp at h; rw [h.2]; rfl
    · simp at h
    · simp at h
  | scatter root inputs =>
    have hv := h.valid _ (List.mem_of_getElem? h1)
    rw [scatter_body _ _ _ _ _ hv.2] at hmem
    split at hmem
    · rw [List.mem_append, sendLoop_mem] at hmem
      rcases hmem with ⟨a, _, _, h⟩ | h
      · simp at h; rw [h.2, h.1]; rfl
      · simp at h
    · simp at hmem
  | bcast root input =>
    have hroot : root < W := h.valid _ (List.mem_of_getElem? h1)
    have hp : p = .slot 0 := by
      rcases (bcast_mem hW hr hroot).1 hmem with h | ⟨j, _, _, _, h⟩ | ⟨j, _, _, _, h⟩ <;> simp at h
      exact h.2
    subst hp
    simp only [payload, msgOf]
    -- A = assign :: A'
    simp only [callBody, bcastOps] at h2
    cases A with
    | nil => simp at h2
    | cons a A =>
      simp only [List.cons_append, List.cons.injEq] at h2
      obtain ⟨rfl, h2⟩ := h2
      rw [h3]
      unfold slotsAfter
      rw [List.foldl_append, List.foldl_cons]
      have hA : ∀ op ∈ A, op ∈ callBody W r key (.bcast root input) := by
        intro op ho
        simp only [callBody, bcastOps]
        rw [h2]
        simp [ho]
      have hAst : ∀ op ∈ A, writes key 0 op → op ≠ Op.assign key 0 (input r) → Stores (contents cs) r key 0 (input root) op := by
        intro op ho hw hne
        rcases (bcast_mem hW hr hroot).1 (hA op ho) with rfl | ⟨j, _, _, _, rfl⟩ | ⟨j, _, _, _, rfl⟩
        · exact absurd rfl hne
        · rcases hw with ⟨_, h⟩ | ⟨_, h⟩ <;> simp at h
        · right; exact ⟨_, rfl, by simp [contents, h1, msgOf]⟩
      -- the loop contains no assignment
      have noassign : ∀ v, ∀ (stride : Nat) (rec : Bool) (vr : Nat), Op.assign key 0 v ∉ bcastLoop W r vr key stride rec := by
        intro v stride rec vr
        fun_induction bcastLoop W r vr key stride rec <;> simp_all
      have hnA : ∀ op ∈ A, op ≠ Op.assign key 0 (input r) := by
        rintro op ho rfl
        apply noassign (input r) (bitFloor W) (ringOffset root r W == 0) (ringOffset root r W)
        rw [h2]; simp [ho]
      apply fold_const
      · intro op ho hw; exact hAst op ho hw (hnA op ho)
      · rcases loop_send_after_recv _ _ _ _ _ _ _ _ _ h2 ⟨dst, _, rfl⟩ with h0 | ⟨src, hs⟩
        · left
          rw [ringOffset_eq hW hroot hr] at h0
          have hd : dist W root r = 0 := by simpa using h0
          have : r = root := by
            unfold dist at hd
            rw [mod2 (by omega)] at hd
            split at hd <;> omega
          subst this
          exact effect_stores (Or.inl rfl)
        · right; exact ⟨_, hs, Or.inr ⟨src, rfl⟩⟩

/-! ### Where a returned call sits -/

theorem take_returned {W r : Nat} (hW : W < 2 ^ 62) (hr : r < W) : ∀ (cs : List Call) (k n i : Nat) (c : Call),
    (∀ c ∈ cs, c.Valid W) → cs[i]? = some c → Op.ret (k + i) ∈ (script W r k cs).take n →
    ∃ P S, (script W r k cs).take n = P ++ callBody W r (k + i) c ++ S ∧ (∀ op ∈ P, ∀ x, ¬ writes (k + i) x op) ∧
      (∀ op ∈ S, ∀ x, ¬ writes (k + i) x op) ∧ Op.call (k + i) ∈ P
  | [], _, _, _, _, _, h, _ => by simp at h
  | c0 :: cs, k, n, i, c, hv, hc, hret => by
    have hok0 : CallOK W c0 k := call_ok hW c0 (hv c0 (by simp))
    have hv' : ∀ c ∈ cs, c.Valid W := fun c hc => hv c (by simp [hc])
    -- the first call is complete
    have hlen : (callOps W r k c0).length ≤ n := by
      by_contra hcon
      rw [script, List.take_append_of_le_length (by omega)] at hret
      have hm := List.mem_of_mem_take hret
      have hk := callOps_key hok0 hr hm
      simp only [keyOf] at hk
      have hi : i = 0 := by omega
      subst hi
      unfold callOps at hret hcon
      rw [show n = (n - 1) + 1 by
        cases n with
        | zero => simp at hret
        | succ n => omega] at hret
      rw [List.take_succ_cons, List.mem_cons] at hret
      rcases hret with h | h
      · simp at h
      · simp only [List.length_cons, List.length_append, List.length_nil] at hcon
        rw [List.take_append_of_le_length (by omega)] at h
        exact (body_not_special hok0 hr (k + 0)).2.1 (List.mem_of_mem_take h)
    have htake : (script W r k (c0 :: cs)).take n = callOps W r k c0 ++ (script W r (k + 1) cs).take (n - (callOps W r k c0).length) := by
      rw [script, List.take_append, List.take_of_length_le hlen]
    cases i with
    | zero =>
      simp at hc; subst hc
      refine ⟨[Op.call k], Op.ret k :: (script W r (k + 1) cs).take (n - (callOps W r k c0).length), ?_, ?_, ?_, by simp⟩
      · rw [htake]; simp [callOps]
      · intro op ho x hw
        simp at ho; subst ho
        rcases hw with ⟨_, h⟩ | ⟨_, h⟩ <;> simp at h
      · intro op ho x hw
        rcases List.mem_cons.1 ho with rfl | ho
        · rcases hw with ⟨_, h⟩ | ⟨_, h⟩ <;> simp at h
        · have := (script_key hW hv' hr (List.mem_of_mem_take ho)).1
          have := writes_key hw
          omega
    | succ i =>
      rw [htake, List.mem_append] at hret
      have e : k + 1 + i = k + (i + 1) := by omega
      rcases hret with h | h
      · have := callOps_key hok0 hr h; simp [keyOf] at this
      · rw [← e] at h
        obtain ⟨P, S, h1, h2, h3, h4⟩ := take_returned hW hr cs (k + 1) _ i c hv' (by simpa using hc) h
        rw [e] at h1 h2 h3 h4
        refine ⟨callOps W r k c0 ++ P, S, ?_, ?_, h3, by simp [h4]⟩
        · rw [htake, h1]; simp
        · intro op ho x hw
          rcases List.mem_append.1 ho with ho | ho
          · have := callOps_key hok0 hr ho
            have := writes_key hw
            omega
          · exact h2 op ho x hw

/-- The content of the result slots of a returned call is determined by its body. -/
theorem returned_slots {W : Nat} {cs : List Call} (h : ValidCalls W cs) {st : World} (hreach : Reach W (progOf W cs) st)
    {r k : Nat} {c : Call} (hr : r < W) (hc : cs[k]? = some c) (hret : Returned W cs st r k) (idx : Nat) :
    ∃ s : Slots, s k idx = none ∧ st.slots r k idx = (callBody W r k c).foldl (slotEffect (contents cs) r) s k idx := by
  have hv := (values (contents cs) (sendsOK h) hreach).1 r hr
  have hret' : Op.ret (0 + k) ∈ (script W r 0 cs).take (st.pc r) := by rw [Nat.zero_add]; exact hret
  obtain ⟨P, S, h1, h2, h3, h4⟩ := take_returned h.small hr cs 0 (st.pc r) k c h.valid hc hret'
  rw [Nat.zero_add] at h1 h2 h3
  refine ⟨P.foldl (slotEffect (contents cs) r) (fun _ _ => none), ?_, ?_⟩
  · rw [fold_none P _ (fun op ho => h2 op ho idx)]
  · rw [hv, slotsAfter, progOf, h1, List.foldl_append, List.foldl_append, fold_none S _ (fun op ho => h3 op ho idx)]

/-! ### The properties -/

/-- **C18.** When Broadcast has returned on a party, that party holds the root's input. -/
theorem C18_broadcast_delivers_root_data (W : Nat) (cs : List Call) (h : ValidCalls W cs) (st : World)
    (hreach : Reach W (progOf W cs) st) (r k root : Nat) (input : Nat → Bytes) (hr : r < W)
    (hc : cs[k]? = some (.bcast root input)) (hret : Returned W cs st r k) :
    st.slots r k 0 = some (input root) := by
  obtain ⟨s, _, hs⟩ := returned_slots h hreach hr hc hret 0
  have hroot : root < W := h.valid _ (List.mem_of_getElem? hc)
  have hW := h.small
  rw [hs]
  have noassign : ∀ v, ∀ (stride : Nat) (rec : Bool) (vr : Nat), Op.assign k 0 v ∉ bcastLoop W r vr k stride rec := by
    intro v stride rec vr
    fun_induction bcastLoop W r vr k stride rec <;> simp_all
  have hbody : callBody W r k (.bcast root input) =
    Op.assign k 0 (input r) :: bcastLoop W r (ringOffset root r W) k (bitFloor W) (ringOffset root r W == 0) := rfl
  rw [hbody, List.foldl_cons]
  apply fold_const
  · intro op ho hw
    rcases (bcast_mem (input := input) hW hr hroot).1 (by rw [hbody]; exact List.mem_cons_of_mem _ ho) with
      rfl | ⟨j, _, _, _, rfl⟩ | ⟨j, _, _, _, rfl⟩
    · exact absurd ho (noassign _ _ _ _)
    · rcases hw with ⟨_, h⟩ | ⟨_, h⟩ <;> simp at h
    · right; exact ⟨_, rfl, by simp [contents, hc, msgOf]⟩
  · by_cases hrr : r = root
    · left; subst hrr; exact effect_stores (Or.inl rfl)
    · right
      -- the party receives at the stride given by the lowest set bit of its virtual rank
      have hd0 : dist W root r ≠ 0 := by
        unfold dist; rw [mod2 (by omega)]; split <;> omega
      have hdl : dist W root r < W := Nat.mod_lt _ (by omega)
      have hex : ∃ j, dist W root r % 2 ^ (j + 1) ≠ 0 :=
        ⟨dist W root r, by rw [Nat.mod_eq_of_lt (Nat.lt_trans Nat.lt_two_pow_self (Nat.pow_lt_pow_right (by omega) (by omega)))]; exact hd0⟩
      classical
      have hj := Nat.find_spec hex
      have hmin : dist W root r % 2 ^ (Nat.find hex) = 0 := by
        cases hfz : Nat.find hex with
        | zero => simp [Nat.mod_one]
        | succ m =>
          have := Nat.find_min hex (m := m) (by omega)
          simpa using this
      have hle : 2 ^ Nat.find hex ≤ dist W root r := Nat.le_of_dvd (by omega) (Nat.dvd_of_mod_eq_zero hmin)
      have hin := (bcast_mem (key := k) (input := input) hW hr hroot).2
        (Or.inr (Or.inr ⟨Nat.find hex, by omega, hmin, hj, rfl⟩))
      rw [hbody] at hin
      rcases List.mem_cons.1 hin with h | h
      · simp at h
      · exact ⟨_, h, Or.inr ⟨_, rfl⟩⟩

/-- **C19** AllGather: on every party, slot `i` of the result is party `i`'s input. -/
theorem C19_allgather_in_rank_order (W : Nat) (cs : List Call) (h : ValidCalls W cs) (st : World)
    (hreach : Reach W (progOf W cs) st) (r k : Nat) (input : Nat → Bytes) (hr : r < W)
    (hc : cs[k]? = some (.allgather input)) (hret : Returned W cs st r k) (i : Nat) (hi : i < W) :
    st.slots r k i = some (input i) := by
  obtain ⟨s, _, hs⟩ := returned_slots h hreach hr hc hret i
  rw [hs, allgather_body]
  apply fold_const
  · intro op ho hw
    rw [List.mem_append, sendLoop_mem, collect_mem] at ho
    rcases ho with ⟨_, _, _, rfl⟩ | ⟨_, rfl⟩ | ⟨x, _, _, rfl⟩
    · rcases hw with ⟨_, h⟩ | ⟨_, h⟩ <;> simp at h
    · rcases hw with ⟨v, h⟩ | ⟨_, h⟩
      · simp at h; obtain ⟨rfl, _⟩ := h; exact Or.inl rfl
      · simp at h
    · rcases hw with ⟨v, h⟩ | ⟨_, h⟩
      · simp at h
      · simp at h; obtain ⟨_, rfl⟩ := h
        exact Or.inr ⟨_, rfl, by simp [contents, hc, msgOf]⟩
  · right
    by_cases hir : i = r
    · exact ⟨.assign k i (input r), by rw [List.mem_append, collect_mem]; right; left; exact ⟨hr, by rw [hir]⟩, Or.inl ⟨_, rfl⟩⟩
    · exact ⟨.recv i k i, by rw [List.mem_append, collect_mem]; right; right; exact ⟨i, hi, hir, rfl⟩, Or.inr ⟨i, rfl⟩⟩

/-- **C19** Gather: on the root, slot `i` is party `i`'s input; elsewhere the result is empty. -/
theorem C19_gather_on_root_only (W : Nat) (cs : List Call) (h : ValidCalls W cs) (st : World)
    (hreach : Reach W (progOf W cs) st) (r k root : Nat) (input : Nat → Bytes) (hr : r < W)
    (hc : cs[k]? = some (.gather root input)) (hret : Returned W cs st r k) (i : Nat) (hi : i < W) :
    st.slots r k i = if r = root then some (input i) else none := by
  obtain ⟨s, hsn, hs⟩ := returned_slots h hreach hr hc hret i
  rw [hs, gather_body]
  by_cases hrr : r = root
  · rw [if_pos hrr, if_pos hrr.symm]
    apply fold_const
    · intro op ho hw
      rcases collect_mem.1 ho with ⟨_, rfl⟩ | ⟨x, _, _, rfl⟩
      · rcases hw with ⟨v, h⟩ | ⟨_, h⟩
        · simp at h; obtain ⟨rfl, _⟩ := h; exact Or.inl rfl
        · simp at h
      · rcases hw with ⟨v, h⟩ | ⟨_, h⟩
        · simp at h
        · simp at h; obtain ⟨_, rfl⟩ := h
          exact Or.inr ⟨_, rfl, by simp [contents, hc, msgOf]⟩
    · right
      by_cases hir : i = r
      · exact ⟨.assign k i (input r), by rw [collect_mem]; left; exact ⟨hr, by rw [hir]⟩, Or.inl ⟨_, rfl⟩⟩
      · exact ⟨.recv i k i, by rw [collect_mem]; right; exact ⟨i, hi, hir, rfl⟩, Or.inr ⟨i, rfl⟩⟩
  · rw [if_neg hrr, if_neg (fun e => hrr e.symm), fold_none, hsn]
    intro op ho hw
    simp at ho; subst ho
    rcases hw with ⟨_, h⟩ | ⟨_, h⟩ <;> simp at h

/-- **C19** Scatter: party `i` gets the root's `i`-th input. -/
theorem C19_scatter_gives_ith_input (W : Nat) (cs : List Call) (h : ValidCalls W cs) (st : World)
    (hreach : Reach W (progOf W cs) st) (r k root : Nat) (inputs : Nat → List Bytes) (hr : r < W)
    (hc : cs[k]? = some (.scatter root inputs)) (hret : Returned W cs st r k) :
    st.slots r k 0 = (inputs root)[r]? := by
  obtain ⟨s, hsn, hs⟩ := returned_slots h hreach hr hc hret 0
  have hv := h.valid _ (List.mem_of_getElem? hc)
  have hget : (inputs root)[r]? = some ((inputs root).getD r []) := by
    rw [List.getD_eq_getElem?_getD, List.getElem?_eq_getElem (by rw [hv.2]; exact hr)]; rfl
  rw [hs, scatter_body _ _ _ _ _ hv.2, hget]
  by_cases hrr : root = r
  · subst hrr
    rw [if_pos rfl]
    apply fold_const
    · intro op ho hw
      rw [List.mem_append, sendLoop_mem, List.mem_singleton] at ho
      rcases ho with ⟨_, _, _, rfl⟩ | rfl
      · rcases hw with ⟨_, h⟩ | ⟨_, h⟩ <;> simp at h
      · exact Or.inl rfl
    · right; exact ⟨_, by rw [List.mem_append]; right; exact List.mem_singleton.2 rfl, Or.inl ⟨_, rfl⟩⟩
  · rw [if_neg hrr]
    apply fold_const
    · intro op ho hw
      simp at ho; subst ho
      exact Or.inr ⟨_, rfl, by simp [contents, hc, msgOf]⟩
    · right; exact ⟨_, List.mem_singleton.2 rfl, Or.inr ⟨_, rfl⟩⟩

/-! #### Barrier -/

theorem before_mem {l A B : List Op} {x : Op} {n : Nat} (hl : l = A ++ x :: B) (hx : x ∈ l.take n) (hA : x ∉ A) :
    ∀ y ∈ A, y ∈ l.take n := by
  intro y hy
  rcases Nat.lt_or_ge A.length n with h | h
  · rw [hl, List.take_append, List.take_of_length_le (by omega)]; simp [hy]
  · rw [hl, List.take_append_of_le_length h] at hx
    exact absurd (List.mem_of_mem_take hx) hA

/-- One round of the barrier. -/
def round (W r key o : Nat) : List Op := [Op.send (nextRank W r o) key (.const []), Op.recv (prevRank W r o) key 0]

theorem barrier_rounds (W r key j : Nat) (hj : j = 0 ∨ 2 ^ (j - 1) < W) :
    barrierOps W r key 1 = (List.range j).flatMap (fun i => round W r key (2 ^ i)) ++ barrierOps W r key (2 ^ j) := by
  induction j with
  | zero => simp
  | succ j ih =>
    have hlt : 2 ^ j < W := by simpa using hj
    have h2 : j = 0 ∨ 2 ^ (j - 1) < W := by
      rcases Nat.eq_zero_or_pos j with h | h
      · exact Or.inl h
      · right; exact Nat.lt_of_le_of_lt (Nat.pow_le_pow_right (by omega) (by omega)) hlt
    rw [ih h2, List.range_succ, List.flatMap_append]
    conv_lhs => rw [barrierOps, if_pos ⟨Nat.two_pow_pos j, hlt⟩]
    simp [round, Nat.pow_succ]

theorem script_split {W r : Nat} : ∀ (cs : List Call) (k i : Nat) (c : Call), cs[i]? = some c →
    ∃ P S, script W r k cs = P ++ callOps W r (k + i) c ++ S
  | [], _, _, _, h => by simp at h
  | c0 :: cs, k, i, c, h => by
    cases i with
    | zero => simp at h; subst h; exact ⟨[], script W r (k + 1) cs, by simp [script]⟩
    | succ i =>
      obtain ⟨P, S, hs⟩ := script_split cs (k + 1) i c (by simpa using h)
      exact ⟨callOps W r k c0 ++ P, S, by rw [script, hs, show k + 1 + i = k + (i + 1) by omega]; simp⟩

/-- Passing the send of round `j` means having passed everything before it in the same call. -/
theorem barrier_before {W : Nat} {cs : List Call} (h : ValidCalls W cs) {k : Nat} (hc : cs[k]? = some .barrier) {q : Nat} (hq : q < W)
    {n : Nat} (A B : List Op) (x : Op) (hsplit : callOps W q k .barrier = A ++ x :: B)
    (hx : x ∈ (progOf W cs q).take n) (hsr : (∃ d p, x = .send d k p) ∨ x = .ret k) :
    ∀ y ∈ A, y ∈ (progOf W cs q).take n := by
  obtain ⟨P, S, hs⟩ := script_split (W := W) (r := q) cs 0 k .barrier hc
  rw [Nat.zero_add] at hs
  have hl : progOf W cs q = (P ++ A) ++ x :: (B ++ S) := by
    rw [progOf, hs, hsplit]; simp
  have hnot : x ∉ P ++ A := by
    rcases hsr with ⟨d, p, rfl⟩ | rfl
    · have hind := (matched_of_valid h).indep q hq
      rw [hl, List.pairwise_append] at hind
      intro hcon
      exact (hind.2.2 _ hcon _ (by simp)).1 d k ⟨⟨p, rfl⟩, p, rfl⟩
    · -- sorted strictly: ret has a unique position
      intro hcon
      have hm := hx
      rcases List.mem_append.1 hcon with h1 | h1
      · -- `ret k` in P: P contains only smaller keys
        have : ∀ (cs : List Call) (k0 i : Nat) (c : Call) (P S : List Op), (∀ c ∈ cs, c.Valid W) → cs[i]? = some c →
            script W q k0 cs = P ++ callOps W q (k0 + i) c ++ S → ∃ P', (∀ op ∈ P', keyOf op < k0 + i) ∧
            ∃ S', script W q k0 cs = P' ++ callOps W q (k0 + i) c ++ S' ∧ ∀ op ∈ S', k0 + i < keyOf op := by
          intro cs
          induction cs with
          | nil => intro k0 i c P S _ h; simp at h
          | cons c0 cs ih =>
            intro k0 i c P S hv hci _
            cases i with
            | zero =>
              simp at hci; subst hci
              refine ⟨[], by simp, script W q (k0 + 1) cs, by simp [script], ?_⟩
              intro op ho
              have := (script_key h.small (fun c hc => hv c (by simp [hc])) hq ho).1
              omega
            | succ i =>
              obtain ⟨P0, S0, h0⟩ := script_split (W := W) (r := q) cs (k0 + 1) i c (by simpa using hci)
              obtain ⟨P', hP, S', hS, hS'⟩ := ih (k0 + 1) i c P0 S0 (fun c hc => hv c (by simp [hc])) (by simpa using hci) h0
              have e : k0 + 1 + i = k0 + (i + 1) := by omega
              rw [e] at hP hS hS'
              refine ⟨callOps W q k0 c0 ++ P', ?_, S', by rw [script, hS]; simp, hS'⟩
              intro op ho
              rcases List.mem_append.1 ho with ho | ho
              · have := callOps_key (call_ok h.small c0 (hv c0 (by simp))) hq ho; omega
              · exact hP op ho
        obtain ⟨P', hP', S', hS', hS''⟩ := this cs 0 k .barrier P S h.valid hc (by rw [Nat.zero_add]; exact hs)
        rw [Nat.zero_add] at hP' hS' hS''
        -- count occurrences of ret k
        have c1 : (script W q 0 cs).count (Op.ret k) = 1 := by
          rw [hS', List.count_append, List.count_append]
          have z1 : P'.count (Op.ret k) = 0 := by
            rw [List.count_eq_zero]; intro hm; have := hP' _ hm; simp [keyOf] at this
          have z2 : S'.count (Op.ret k) = 0 := by
            rw [List.count_eq_zero]; intro hm; have := hS'' _ hm; simp [keyOf] at this
          have z3 : (callOps W q k .barrier).count (Op.ret k) = 1 := by
            unfold callOps
            rw [List.count_cons, List.count_append]
            have : (callBody W q k .barrier).count (Op.ret k) = 0 := by
              rw [List.count_eq_zero]; exact (body_not_special (call_ok h.small .barrier trivial) hq k).2.1
            rw [this]; simp
          omega
        have c2 : (script W q 0 cs).count (Op.ret k) ≥ 2 := by
          have hl' : script W q 0 cs = (P ++ A) ++ Op.ret k :: (B ++ S) := hl
          rw [hl', List.count_append, List.count_cons]
          have : 0 < (P ++ A).count (Op.ret k) := List.count_pos_iff.2 hcon
          simp only [beq_self_eq_true, if_true]; omega
        omega
      · -- `ret k` in A: the call has it only at the end
        have c1 : (callOps W q k .barrier).count (Op.ret k) = 1 := by
          unfold callOps
          rw [List.count_cons, List.count_append]
          have : (callBody W q k .barrier).count (Op.ret k) = 0 := by
            rw [List.count_eq_zero]; exact (body_not_special (call_ok h.small .barrier trivial) hq k).2.1
          rw [this]; simp
        have c2 : (callOps W q k .barrier).count (Op.ret k) ≥ 2 := by
          rw [hsplit, List.count_append, List.count_cons]
          have : 0 < A.count (Op.ret k) := List.count_pos_iff.2 h1
          simp; omega
        omega
  intro y hy
  exact before_mem hl hx hnot y (by simp [hy])

/-- **C17.** No party returns from Barrier before every party has entered it. -/
theorem C17_barrier_waits_for_everybody (W : Nat) (cs : List Call) (h : ValidCalls W cs) (st : World)
    (hreach : Reach W (progOf W cs) st) (r k : Nat) (hr : r < W) (hc : cs[k]? = some .barrier)
    (hret : Returned W cs st r k) : ∀ q, q < W → Entered W cs st q k := by
  have hW := h.small
  have hm := matched_of_valid h
  have hci := chanInv hm hreach
  let passed := fun (q : Nat) (op : Op) => op ∈ (progOf W cs q).take (st.pc q)
  let snd := fun (q j : Nat) => Op.send (nextRank W q (2 ^ j)) k (.const [])
  let rcv := fun (q j : Nat) => Op.recv (prevRank W q (2 ^ j)) k 0
  -- layout of the call around round j
  have layout : ∀ q j, 2 ^ j < W → ∃ B, callOps W q k .barrier =
      (Op.call k :: (List.range j).flatMap (fun i => round W q k (2 ^ i))) ++ snd q j :: rcv q j :: B := by
    intro q j hj
    have hj' : j = 0 ∨ 2 ^ (j - 1) < W := by
      rcases Nat.eq_zero_or_pos j with h | h
      · exact Or.inl h
      · right; exact Nat.lt_of_le_of_lt (Nat.pow_le_pow_right (by omega) (by omega)) hj
    refine ⟨barrierOps W q k (2 ^ j * 2) ++ [Op.ret k], ?_⟩
    show Op.call k :: (barrierOps W q k 1 ++ [Op.ret k]) = _
    rw [barrier_rounds W q k j hj']
    conv_lhs => rw [barrierOps, if_pos ⟨Nat.two_pow_pos j, hj⟩]
    simp [snd, rcv]
  -- passing a send
  have sendPast : ∀ q j, q < W → 2 ^ j < W → passed q (snd q j) → Entered W cs st q k ∧
      ∀ i, i < j → passed q (snd q i) ∧ passed q (rcv q i) := by
    intro q j hq hj hp
    obtain ⟨B, hB⟩ := layout q j hj
    have hb := barrier_before h hc hq _ _ _ hB hp (Or.inl ⟨_, _, rfl⟩)
    refine ⟨hb _ (by simp), ?_⟩
    intro i hi
    constructor <;> refine hb _ (List.mem_cons_of_mem _ (List.mem_flatMap.2 ⟨i, List.mem_range.2 hi, ?_⟩)) <;> simp [round, snd, rcv]
  -- receiving from round j's partner means the partner has sent
  have recvSent : ∀ q j, q < W → 2 ^ j < W → passed q (rcv q j) → passed (prevRank W q (2 ^ j)) (snd (prevRank W q (2 ^ j)) j) := by
    intro q j hq hj hp
    have hpl := prev_lt hW hq (s := 2 ^ j) (by omega)
    obtain ⟨op, ho, p, rfl⟩ := hci.recvd (prevRank W q (2 ^ j)) q k hpl hq ⟨_, hp, 0, rfl⟩
    obtain ⟨_, c, h1, h2⟩ := script_key hW h.valid hpl (List.mem_of_mem_take ho)
    simp only [keyOf, Nat.sub_zero] at h1 h2
    rw [hc] at h1; simp at h1; subst h1
    have hp' : p = .const [] := by
      rcases callOps_mem.1 h2 with h3 | h3 | h3
      · simp at h3
      · obtain ⟨o, _, h4 | h4⟩ := barrier_mem.1 h3
        · simp at h4; exact h4.2
        · simp at h4
      · simp at h3
    subst hp'
    show Op.send _ k _ ∈ _
    rw [next_prev hW hq hj]
    exact ho
  -- knowledge
  have K : ∀ j, ∀ q, q < W → 2 ^ j < W → passed q (snd q j) → ∀ d, d < 2 ^ j → Entered W cs st (prevRank W q d) k := by
    intro j
    induction j with
    | zero =>
      intro q hq hj hp d hd
      have : d = 0 := by simpa using hd
      subst this
      rw [prevRank_eq hW hq (by omega), Nat.sub_zero, Nat.add_mod_right, Nat.mod_eq_of_lt hq]
      exact (sendPast q 0 hq hj hp).1
    | succ j ih =>
      intro q hq hj hp d hd
      have hjj : 2 ^ (j + 1) = 2 ^ j * 2 := Nat.pow_succ 2 j
      have hpast := (sendPast q (j + 1) hq hj hp).2 j (by omega)
      rcases Nat.lt_or_ge d (2 ^ j) with hdj | hdj
      · exact ih q hq (by omega) hpast.1 d hdj
      · have hs := recvSent q j hq (by omega) hpast.2
        have hpl := prev_lt hW hq (s := 2 ^ j) (by omega)
        have := ih _ hpl (by omega) hs (d - 2 ^ j) (by omega)
        have e : prevRank W (prevRank W q (2 ^ j)) (d - 2 ^ j) = prevRank W q d := by
          rw [prevRank_eq hW hpl (by omega), prevRank_eq hW hq (s := d) (by omega), prevRank_eq hW hq (s := 2 ^ j) (by omega),
            mod2 (a := q + W - 2 ^ j) (by omega), mod2 (a := q + W - d) (by omega)]
          split <;> split <;> rw [mod2 (by omega)] <;> split <;> omega
        rw [e] at this; exact this
  -- the returning party has passed all rounds
  have allRounds : ∀ j, 2 ^ j < W → passed r (snd r j) ∧ passed r (rcv r j) := by
    intro j hj
    obtain ⟨B, hB⟩ := layout r j hj
    have hend : callOps W r k .barrier = (Op.call k :: barrierOps W r k 1) ++ Op.ret k :: [] := by
      simp [callOps, callBody]
    have hb := barrier_before h hc hr _ _ _ hend hret (Or.inr rfl)
    have hmem : ∀ op, op ≠ Op.ret k → op ∈ callOps W r k .barrier → passed r op := by
      intro op hne ho
      apply hb
      rw [hend, List.mem_append] at ho
      rcases ho with ho | ho
      · exact ho
      · exact absurd (List.mem_singleton.1 ho) hne
    exact ⟨hmem _ (by simp [snd]) (by rw [hB]; simp), hmem _ (by simp [rcv]) (by rw [hB]; simp)⟩
  have entR : Entered W cs st r k := by
    have hend : callOps W r k .barrier = (Op.call k :: barrierOps W r k 1) ++ Op.ret k :: [] := by
      simp [callOps, callBody]
    exact barrier_before h hc hr _ _ _ hend hret (Or.inr rfl) _ (by simp)
  intro q hq
  -- distance from q to r
  have hdl : dist W q r < W := Nat.mod_lt _ (by omega)
  have hq' : prevRank W r (dist W q r) = q := by
    rw [prevRank_eq hW hr (by omega)]
    unfold dist
    rw [mod2 (a := r + W - q) (by omega)]
    split <;> rw [mod2 (by omega)] <;> split <;> omega
  by_cases h0 : dist W q r = 0
  · rw [h0, prevRank_eq hW hr (by omega), Nat.sub_zero, Nat.add_mod_right, Nat.mod_eq_of_lt hr] at hq'
    rw [← hq']; exact entR
  · -- last round 2^j with 2^j ≤ dist < 2^(j+1)
    have hj1 : 2 ^ Nat.log2 (dist W q r) ≤ dist W q r := by rw [← Nat.le_log2 h0]
    have hj2 : dist W q r < 2 ^ (Nat.log2 (dist W q r) + 1) := by rw [← Nat.log2_lt h0]; omega
    rw [Nat.pow_succ] at hj2
    generalize Nat.log2 (dist W q r) = j at *
    have hr2 := (allRounds j (by omega)).2
    have hs := recvSent r j hr (by omega) hr2
    have hpl := prev_lt hW hr (s := 2 ^ j) (by omega)
    have := K j _ hpl (by omega) hs (dist W q r - 2 ^ j) (by omega)
    have e : prevRank W (prevRank W r (2 ^ j)) (dist W q r - 2 ^ j) = prevRank W r (dist W q r) := by
      generalize dist W q r = d at *
      rw [prevRank_eq hW hpl (by omega), prevRank_eq hW hr (s := d) (by omega), prevRank_eq hW hr (s := 2 ^ j) (by omega),
        mod2 (a := r + W - 2 ^ j) (by omega), mod2 (a := r + W - d) (by omega)]
      split <;> split <;> rw [mod2 (by omega)] <;> split <;> omega
    rw [e, hq'] at this; exact this

/-! #### Progress -/

/-- **C20.** For every world size, every sequence of collective calls and every schedule: as long as some party has not
finished, some party can take a step. -/
theorem C20_no_deadlock (W : Nat) (cs : List Call) (h : ValidCalls W cs) (st : World) (hreach : Reach W (progOf W cs) st)
    (hu : ∃ r, r < W ∧ st.pc r ≠ (progOf W cs r).length) : ∃ r st', stepParty W (progOf W cs) st r = some st' :=
  progress (matched_of_valid h) (contents cs) (sendsOK h) hreach hu

/-- Operations still to be executed by parties `0..W-1`. -/
def remaining (W : Nat) (prog : Nat → List Op) (st : World) : Nat :=
  ((List.range W).map (fun r => (prog r).length - st.pc r)).sum

/-- **C20**, termination: every step brings the whole run closer to its end, so every maximal run is finite and (by
`C20_no_deadlock`) ends with every party having returned from every call. -/
theorem C20_every_step_counts (W : Nat) (cs : List Call) (st st' : World) (r : Nat)
    (hs : stepParty W (progOf W cs) st r = some st') :
    remaining W (progOf W cs) st' + 1 = remaining W (progOf W cs) st := by
  obtain ⟨hr, op, ho, he⟩ := stepParty_some hs
  have hpc := exec_pc he
  have hlt := (List.getElem?_eq_some_iff.1 ho).1
  unfold remaining
  rw [hpc]
  have key : ∀ n, (r < n → ((List.range n).map (fun q => (progOf W cs q).length - upd st.pc r (st.pc r + 1) q)).sum + 1 =
      ((List.range n).map (fun q => (progOf W cs q).length - st.pc q)).sum) ∧
      (¬ r < n → ((List.range n).map (fun q => (progOf W cs q).length - upd st.pc r (st.pc r + 1) q)).sum =
      ((List.range n).map (fun q => (progOf W cs q).length - st.pc q)).sum) := by
    intro n
    induction n with
    | zero => simp
    | succ n ih =>
      simp only [List.range_succ, List.map_append, List.sum_append, List.map_cons, List.map_nil, List.sum_cons, List.sum_nil]
      constructor
      · intro hlt'
        by_cases hrn : r = n
        · subst hrn
          have := ih.2 (by omega)
          simp only [upd, if_true] at *
          omega
        · have := ih.1 (by omega)
          simp only [upd, if_neg (fun e : n = r => hrn e.symm)] at *
          omega
      · intro hge
        have := ih.2 (by omega)
        simp only [upd, if_neg (show n ≠ r by omega)] at *
        omega
  exact (key W).1 hr

/-- When all parties have finished, no message of any collective is left unread in any channel. -/
theorem C20_no_message_left (W : Nat) (cs : List Call) (h : ValidCalls W cs) (st : World)
    (hreach : Reach W (progOf W cs) st) (hf : ∀ r, r < W → st.pc r = (progOf W cs r).length) (a b k : Nat) (ha : a < W)
    (hb : b < W) : st.mail a b k = none :=
  no_leftover (matched_of_valid h) hreach hf a b k ha hb

/-- Non-vacuity: three parties, a barrier, a broadcast from party 2, a scatter. -/
example : ValidCalls 3 [.barrier, .bcast 2 (fun r => [UInt8.ofNat r]), .scatter 1 (fun _ => [[1], [2], [3]])] :=
  ⟨by decide, by simp [Call.Valid]⟩

/-- From every reachable state there is a continuation in which every party finishes all its calls. -/
theorem C20_can_finish (W : Nat) (cs : List Call) (h : ValidCalls W cs) (st : World) (hreach : Reach W (progOf W cs) st) :
    ∃ st', Reach W (progOf W cs) st' ∧ ∀ r, r < W → st'.pc r = (progOf W cs r).length := by
  generalize hn : remaining W (progOf W cs) st = n
  induction n generalizing st with
  | zero =>
    refine ⟨st, hreach, ?_⟩
    by_contra hcon
    obtain ⟨r, st', hs⟩ := C20_no_deadlock W cs h st hreach (by simpa using hcon)
    have := C20_every_step_counts W cs st st' r hs
    omega
  | succ n ih =>
    by_cases hf : ∀ r, r < W → st.pc r = (progOf W cs r).length
    · exact ⟨st, hreach, hf⟩
    · obtain ⟨r, st', hs⟩ := C20_no_deadlock W cs h st hreach (by simpa using hf)
      have := C20_every_step_counts W cs st st' r hs
      exact ih st' (.step _ _ _ hreach hs) (by omega)

/-- A finished party has returned from every call. -/
theorem returned_of_finished {W : Nat} {cs : List Call} {st : World} {r k : Nat} {c : Call} (hc : cs[k]? = some c)
    (hf : st.pc r = (progOf W cs r).length) : Returned W cs st r k := by
  unfold Returned
  rw [hf, List.take_length, progOf, script_mem]
  exact ⟨k, c, hc, by rw [Nat.zero_add]; exact callOps_mem.2 (Or.inr (Or.inr rfl))⟩

/-- Non-vacuity of C17-C19: for every valid list of calls there is a reachable state in which every party has returned from
every call, so the conclusions of C17, C18 and C19 are all attained; here on a concrete list. -/
example : ∃ st, Reach 3 (progOf 3 [.barrier, .bcast 2 (fun r => [UInt8.ofNat r])]) st ∧
    st.slots 0 1 0 = some [2] ∧ st.slots 1 1 0 = some [2] ∧
    Entered 3 [.barrier, .bcast 2 (fun r => [UInt8.ofNat r])] st 1 0 := by
  have hv : ValidCalls 3 [.barrier, .bcast 2 (fun r => [UInt8.ofNat r])] := ⟨by decide, by simp [Call.Valid]⟩
  obtain ⟨st, hr, hf⟩ := C20_can_finish 3 _ hv _ (.init)
  exact ⟨st, hr,
    C18_broadcast_delivers_root_data 3 _ hv st hr 0 1 2 _ (by decide) rfl (returned_of_finished rfl (hf 0 (by decide))),
    C18_broadcast_delivers_root_data 3 _ hv st hr 1 1 2 _ (by decide) rfl (returned_of_finished rfl (hf 1 (by decide))),
    C17_barrier_waits_for_everybody 3 _ hv st hr 2 0 (by decide) rfl (returned_of_finished rfl (hf 2 (by decide))) 1 (by decide)⟩

end Yacl.Link
