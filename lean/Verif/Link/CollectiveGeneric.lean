import Verif.Link.CollectiveModel
import Mathlib.Tactic.ByContra

/-! Facts about arbitrary families of party programs: matching of messages, values, progress. -/
namespace Yacl.Link
open Yacl.Channel (Bytes)

def sendsTo (dst key : Nat) (op : Op) : Prop := ∃ p, op = .send dst key p
def recvsFrom (src key : Nat) (op : Op) : Prop := ∃ i, op = .recv src key i

/-- A pair of operations that do not use the same channel direction with the same key. -/
def Indep (a b : Op) : Prop :=
  (∀ dst key, ¬ (sendsTo dst key a ∧ sendsTo dst key b)) ∧ (∀ src key, ¬ (recvsFrom src key a ∧ recvsFrom src key b))

/-- Has party `src` already sent to `dst` / has `dst` already received from `src`. -/
def Sent (prog : Nat → List Op) (st : World) (src dst key : Nat) : Prop :=
  ∃ op ∈ (prog src).take (st.pc src), sendsTo dst key op
def Recvd (prog : Nat → List Op) (st : World) (dst src key : Nat) : Prop :=
  ∃ op ∈ (prog dst).take (st.pc dst), recvsFrom src key op

/-- Well-matched programs. -/
structure Matched (W : Nat) (prog : Nat → List Op) (prio : Nat → Op → Nat) : Prop where
  indep : ∀ r, r < W → (prog r).Pairwise Indep
  valid_send : ∀ r dst key p, Op.send dst key p ∈ prog r → r < W → dst < W ∧ dst ≠ r
  matched : ∀ r src key i, Op.recv src key i ∈ prog r → r < W →
    src < W ∧ src ≠ r ∧ ∃ p, Op.send r key p ∈ prog src ∧ prio src (.send r key p) < prio r (.recv src key i)
  matched' : ∀ r dst key p, Op.send dst key p ∈ prog r → r < W → ∃ i, Op.recv r key i ∈ prog dst
  sorted : ∀ r, r < W → (prog r).Pairwise (fun a b => prio r a ≤ prio r b)
  nofail : ∀ r, r < W → Op.fail ∉ prog r

variable {W : Nat} {prog : Nat → List Op} {prio : Nat → Op → Nat}

theorem take_succ_mem {l : List Op} {n : Nat} {op x : Op} (h : l[n]? = some op) :
    x ∈ l.take (n + 1) ↔ x ∈ l.take n ∨ x = op := by
  rw [List.take_add_one, h]
  simp

/-- In a program with independent operations, the operation at position `n` does not occur (as a send/recv on the same
channel) before it. -/
theorem indep_before {l : List Op} {n : Nat} {op x : Op} (hi : l.Pairwise Indep) (h : l[n]? = some op)
    (hx : x ∈ l.take n) : Indep x op := by
  obtain ⟨hn, he⟩ := List.getElem?_eq_some_iff.1 h
  have hs : l = l.take n ++ l.drop n := (List.take_append_drop n l).symm
  rw [hs, List.pairwise_append] at hi
  refine hi.2.2 x hx op ?_
  rw [List.drop_eq_getElem_cons hn, he]
  simp

/-- Channel invariant. -/
structure ChanInv (W : Nat) (prog : Nat → List Op) (st : World) : Prop where
  mail : ∀ src dst key, src < W → dst < W → ((st.mail src dst key).isSome ↔ Sent prog st src dst key ∧ ¬ Recvd prog st dst src key)
  recvd : ∀ src dst key, src < W → dst < W → Recvd prog st dst src key → Sent prog st src dst key

theorem stepParty_some {st st' : World} {r : Nat} (h : stepParty W prog st r = some st') :
    r < W ∧ ∃ op, (prog r)[st.pc r]? = some op ∧ execOp W st r op = some st' := by
  unfold stepParty at h
  split at h
  · rename_i hr
    split at h
    · exact absurd h (by simp)
    · rename_i op ho; exact ⟨hr, op, ho, h⟩
  · exact absurd h (by simp)

theorem exec_pc {st st' : World} {r : Nat} {op : Op} (h : execOp W st r op = some st') :
    st'.pc = upd st.pc r (st.pc r + 1) := by
  unfold execOp at h
  split at h
  · simp at h; rw [← h]
  · simp at h; rw [← h]
  · simp at h; rw [← h]
  · split at h
    · split at h
      · simp at h
      · simp at h; rw [← h]
    · simp at h
  · split at h
    · split at h
      · simp at h
      · simp at h; rw [← h]
    · simp at h
  · simp at h

theorem sent_step {st st' : World} {r : Nat} {op : Op} (ho : (prog r)[st.pc r]? = some op)
    (h : st'.pc = upd st.pc r (st.pc r + 1)) (src dst key : Nat) :
    Sent prog st' src dst key ↔ Sent prog st src dst key ∨ (src = r ∧ sendsTo dst key op) := by
  unfold Sent
  rw [h]
  by_cases hs : src = r
  · subst hs
    simp only [upd, if_true]
    constructor
    · rintro ⟨x, hx, hp⟩
      rcases (take_succ_mem ho).1 hx with hx | rfl
      · exact Or.inl ⟨x, hx, hp⟩
      · exact Or.inr ⟨trivial, hp⟩
    · rintro (⟨x, hx, hp⟩ | ⟨_, hp⟩)
      · exact ⟨x, (take_succ_mem ho).2 (Or.inl hx), hp⟩
      · exact ⟨op, (take_succ_mem ho).2 (Or.inr rfl), hp⟩
  · simp [upd, hs]

theorem recvd_step {st st' : World} {r : Nat} {op : Op} (ho : (prog r)[st.pc r]? = some op)
    (h : st'.pc = upd st.pc r (st.pc r + 1)) (src dst key : Nat) :
    Recvd prog st' dst src key ↔ Recvd prog st dst src key ∨ (dst = r ∧ recvsFrom src key op) := by
  unfold Recvd
  rw [h]
  by_cases hs : dst = r
  · subst hs
    simp only [upd, if_true]
    constructor
    · rintro ⟨x, hx, hp⟩
      rcases (take_succ_mem ho).1 hx with hx | rfl
      · exact Or.inl ⟨x, hx, hp⟩
      · exact Or.inr ⟨trivial, hp⟩
    · rintro (⟨x, hx, hp⟩ | ⟨_, hp⟩)
      · exact ⟨x, (take_succ_mem ho).2 (Or.inl hx), hp⟩
      · exact ⟨op, (take_succ_mem ho).2 (Or.inr rfl), hp⟩
  · simp [upd, hs]

theorem not_sent_before (hm : Matched W prog prio) {st : World} {r : Nat} {dst key : Nat} {p : Payload}
    (hr : r < W) (ho : (prog r)[st.pc r]? = some (.send dst key p)) : ¬ Sent prog st r dst key := by
  rintro ⟨x, hx, hp⟩
  exact (indep_before (hm.indep r hr) ho hx).1 dst key ⟨hp, p, rfl⟩

theorem not_recvd_before (hm : Matched W prog prio) {st : World} {r : Nat} {src key i : Nat}
    (hr : r < W) (ho : (prog r)[st.pc r]? = some (.recv src key i)) : ¬ Recvd prog st r src key := by
  rintro ⟨x, hx, hp⟩
  exact (indep_before (hm.indep r hr) ho hx).2 src key ⟨hp, i, rfl⟩

/-- A send transmits when the mailbox is empty, which it always is. -/
theorem send_mail (hm : Matched W prog prio) {st : World} (hi : ChanInv W prog st) {r dst key : Nat} {p : Payload} (hr : r < W)
    (hd : dst < W) (ho : (prog r)[st.pc r]? = some (.send dst key p)) : st.mail r dst key = none := by
  have h1 := not_sent_before hm hr ho
  have h2 := hi.mail r dst key hr hd
  cases h : st.mail r dst key with
  | none => rfl
  | some v => rw [h] at h2; exact absurd (h2.1 rfl).1 h1

theorem chanInv_step (hm : Matched W prog prio) {st st' : World} {r : Nat} (hi : ChanInv W prog st)
    (h : stepParty W prog st r = some st') : ChanInv W prog st' := by
  obtain ⟨hr, op, ho, he⟩ := stepParty_some h
  have hpc := exec_pc he
  have hS := fun a b k => sent_step (prog := prog) ho hpc a b k
  have hR := fun a b k => recvd_step (prog := prog) ho hpc a b k
  -- operations that do not touch the channels
  have quiet : st'.mail = st.mail → (∀ d k, ¬ sendsTo d k op) → (∀ s k, ¬ recvsFrom s k op) → ChanInv W prog st' := by
    intro h1 h2 h3
    constructor
    · intro a b k ha hb; rw [h1, hS, hR, hi.mail a b k ha hb]
      simp [h2 b k, h3 a k]
    · intro a b k ha hb; rw [hS, hR]
      simp only [h2 b k, h3 a k, and_false, or_false]
      exact hi.recvd a b k ha hb
  cases op with
  | call key =>
    simp [execOp] at he
    exact quiet (by rw [← he]) (by simp [sendsTo]) (by simp [recvsFrom])
  | ret key =>
    simp [execOp] at he
    exact quiet (by rw [← he]) (by simp [sendsTo]) (by simp [recvsFrom])
  | assign key idx v =>
    simp [execOp] at he
    exact quiet (by rw [← he]) (by simp [sendsTo]) (by simp [recvsFrom])
  | fail => simp [execOp] at he
  | send dst key p =>
    have hn := not_sent_before hm hr ho
    simp only [execOp] at he
    split at he
    · rename_i hv
      have hnone := send_mail hm hi hr hv.1 ho
      split at he
      · simp at he
      · rename_i v hv'
        simp only [emplaceMail, hnone, Option.isSome_none, Bool.false_eq_true, if_false, Option.some.injEq] at he
        have hmail : st'.mail = updMail st.mail r dst key (some v) := by rw [← he]
        constructor
        · intro a b k ha hb
          rw [hmail, hS, hR]
          have hb' := hi.mail a b k ha hb
          have hc' := hi.recvd a b k ha hb
          by_cases hc : a = r ∧ b = dst ∧ k = key
          · obtain ⟨rfl, rfl, rfl⟩ := hc
            have e1 : sendsTo b k (.send b k p) := ⟨p, rfl⟩
            have e2 : ¬ recvsFrom a k (.send b k p) := by simp [recvsFrom]
            simp only [updMail, and_self, if_true, Option.isSome_some, true_iff]
            exact ⟨Or.inr ⟨trivial, e1⟩, fun h => h.elim (fun h => hn (hc' h)) (fun h => e2 h.2)⟩
          · have e1 : ¬ (a = r ∧ sendsTo b k (.send dst key p)) := by
              rintro ⟨h1, q, hq⟩
              simp at hq; exact hc ⟨h1, hq.1.symm, hq.2.1.symm⟩
            have e2 : ¬ recvsFrom a k (.send dst key p) := by simp [recvsFrom]
            simp only [updMail, hc, if_false, e1, e2, and_false, or_false]
            exact hb'
        · intro a b k ha hb; rw [hS, hR]
          have := hi.recvd a b k ha hb
          have e2 : ¬ recvsFrom a k (.send dst key p) := by simp [recvsFrom]
          simp only [e2, and_false, or_false]
          exact fun h => Or.inl (this h)
    · simp at he
  | recv src key idx =>
    have hn := not_recvd_before hm hr ho
    simp only [execOp] at he
    split at he
    · rename_i hv
      split at he
      · simp at he
      · rename_i v hv'
        simp only [Option.some.injEq] at he
        have hmail : st'.mail = updMail st.mail src r key none := by rw [← he]
        have hsent := (hi.mail src r key hv.1 hr).1 (by rw [hv']; rfl)
        constructor
        · intro a b k ha hb
          rw [hmail, hS, hR]
          have hb' := hi.mail a b k ha hb
          by_cases hc : a = src ∧ b = r ∧ k = key
          · obtain ⟨rfl, rfl, rfl⟩ := hc
            have e1 : recvsFrom a k (.recv a k idx) := ⟨idx, rfl⟩
            simp only [updMail, and_self, if_true, Option.isSome_none, Bool.false_eq_true, false_iff]
            exact fun h => h.2 (Or.inr ⟨trivial, e1⟩)
          · have e1 : ¬ (b = r ∧ recvsFrom a k (.recv src key idx)) := by
              rintro ⟨h1, q, hq⟩
              simp at hq; exact hc ⟨hq.1.symm, h1, hq.2.1.symm⟩
            have e2 : ¬ sendsTo b k (.recv src key idx) := by simp [sendsTo]
            simp only [updMail, hc, if_false, e1, e2, and_false, or_false]
            exact hb'
        · intro a b k ha hb; rw [hS, hR]
          have hold := hi.recvd a b k ha hb
          rintro (h1 | ⟨h1, q, hq⟩)
          · exact Or.inl (hold h1)
          · simp at hq
            obtain ⟨rfl, rfl, _⟩ := hq
            subst h1
            exact Or.inl hsent.1
    · simp at he

theorem chanInv (hm : Matched W prog prio) {st : World} (h : Reach W prog st) : ChanInv W prog st := by
  induction h with
  | init =>
    constructor
    · intro a b k _ _; simp [World.init, Sent]
    · intro a b k _ _; simp [World.init, Recvd]
  | step st st' r _ hs ih => exact chanInv_step hm ih hs

/-- pc never runs past the end. -/
theorem pc_le {st : World} (h : Reach W prog st) (r : Nat) : st.pc r ≤ (prog r).length := by
  induction h with
  | init => simp [World.init]
  | step st st' q _ hs ih =>
    obtain ⟨_, op, ho, he⟩ := stepParty_some hs
    rw [exec_pc he]
    unfold upd
    split
    · rename_i hq; subst hq
      exact (List.getElem?_eq_some_iff.1 ho).1
    · exact ih

/-! ### Values -/

/-- Effect of an operation on the result slots when the message from `src` with `key` to `r` has content `M src r key`. -/
def slotEffect (M : Nat → Nat → Nat → Bytes) (r : Nat) (s : Slots) : Op → Slots
  | .assign key idx v => s.set key idx v
  | .recv src key idx => s.set key idx (M src r key)
  | _ => s

def slotsAfter (M : Nat → Nat → Nat → Bytes) (r : Nat) (ops : List Op) : Slots :=
  ops.foldl (slotEffect M r) (fun _ _ => none)

/-- Each send transmits what `M` says. -/
def SendsOK (W : Nat) (prog : Nat → List Op) (M : Nat → Nat → Nat → Bytes) : Prop :=
  ∀ r n dst key p, r < W → (prog r)[n]? = some (.send dst key p) →
    payload (slotsAfter M r ((prog r).take n)) key p = some (M r dst key)

theorem slotsAfter_succ (M : Nat → Nat → Nat → Bytes) (r : Nat) {l : List Op} {n : Nat} {op : Op} (h : l[n]? = some op) :
    slotsAfter M r (l.take (n + 1)) = slotEffect M r (slotsAfter M r (l.take n)) op := by
  unfold slotsAfter
  rw [List.take_add_one, h]
  simp [List.foldl_append]

/-- Values are the same under every schedule. -/
theorem values (M : Nat → Nat → Nat → Bytes) (hok : SendsOK W prog M) {st : World} (h : Reach W prog st) :
    (∀ r, r < W → st.slots r = slotsAfter M r ((prog r).take (st.pc r))) ∧
    (∀ a b k v, a < W → st.mail a b k = some v → v = M a b k) := by
  induction h with
  | init => exact ⟨by intro r _; simp [World.init, slotsAfter], by intro a b k v _ hv; simp [World.init] at hv⟩
  | step st st' r _ hs ih =>
    obtain ⟨hr, op, ho, he⟩ := stepParty_some hs
    have hpc := exec_pc he
    obtain ⟨ih1, ih2⟩ := ih
    -- slots of the others are unchanged
    have others : st'.slots = upd st.slots r (slotEffect M r (st.slots r) op) →
        ∀ q, q < W → st'.slots q = slotsAfter M q ((prog q).take (st'.pc q)) := by
      intro hsl q hq
      rw [hsl, hpc]
      by_cases hqr : q = r
      · subst hqr
        simp only [upd, if_true]
        rw [slotsAfter_succ M q ho, ← ih1 q hq]
      · simp only [upd, if_neg hqr]
        exact ih1 q hq
    have same : upd st.slots r (st.slots r) = st.slots := by funext q; simp [upd]; intro h; rw [h]
    cases op with
    | call key =>
      simp [execOp] at he
      refine ⟨others (by rw [← he]; simp [slotEffect, same]), by rw [← he]; exact ih2⟩
    | ret key =>
      simp [execOp] at he
      refine ⟨others (by rw [← he]; simp [slotEffect, same]), by rw [← he]; exact ih2⟩
    | assign key idx v =>
      simp [execOp] at he
      refine ⟨others (by rw [← he]; simp [slotEffect]), by rw [← he]; exact ih2⟩
    | fail => simp [execOp] at he
    | send dst key p =>
      simp only [execOp] at he
      split at he
      · split at he
        · simp at he
        · rename_i v hv
          simp only [Option.some.injEq] at he
          refine ⟨others (by rw [← he]; simp [slotEffect, same]), ?_⟩
          rw [← he]
          intro a b k w ha hw
          simp only [emplaceMail] at hw
          split at hw
          · exact ih2 a b k w ha hw
          · simp only [updMail] at hw
            split at hw
            · rename_i hc
              obtain ⟨rfl, rfl, rfl⟩ := hc
              simp only [Option.some.injEq] at hw
              have := hok a (st.pc a) b k p hr ho
              rw [← ih1 a hr, hv] at this
              simp at this
              rw [← hw, this]
            · exact ih2 a b k w ha hw
      · simp at he
    | recv src key idx =>
      simp only [execOp] at he
      split at he
      · rename_i hc
        split at he
        · simp at he
        · rename_i v hv
          simp only [Option.some.injEq] at he
          have hv' := ih2 src r key v hc.1 hv
          refine ⟨others (by rw [← he]; simp [slotEffect, hv']), ?_⟩
          rw [← he]
          intro a b k w ha hw
          simp only [updMail] at hw
          split at hw
          · simp at hw
          · exact ih2 a b k w ha hw
      · simp at he

/-! ### Progress -/

def Finished (prog : Nat → List Op) (st : World) (r : Nat) : Prop := st.pc r = (prog r).length

/-- No reachable state is stuck while some party has not finished. -/
theorem progress (hm : Matched W prog prio) (M : Nat → Nat → Nat → Bytes) (hok : SendsOK W prog M) {st : World}
    (h : Reach W prog st) (hu : ∃ r, r < W ∧ ¬ Finished prog st r) : ∃ r st', stepParty W prog st r = some st' := by
  have hci := chanInv hm h
  have hval := (values M hok h).1
  -- pick the unfinished party whose next operation has the smallest priority
  have key : ∀ n r op, r < W → (prog r)[st.pc r]? = some op → prio r op = n → ∃ r st', stepParty W prog st r = some st' := by
    intro n
    induction n using Nat.strongRecOn with
    | _ n ih =>
      intro r op hr ho hp
      have hmem : op ∈ prog r := List.mem_of_getElem? ho
      have run : ∀ st', execOp W st r op = some st' → ∃ r st', stepParty W prog st r = some st' := by
        intro st' he
        exact ⟨r, st', by simp [stepParty, hr, ho, he]⟩
      cases op with
      | call k => exact run _ rfl
      | ret k => exact run _ rfl
      | assign k i v => exact run _ rfl
      | fail => exact absurd hmem (hm.nofail r hr)
      | send dst k p =>
        have hv := hm.valid_send r dst k p hmem hr
        have hp' := hok r (st.pc r) dst k p hr ho
        rw [← hval r hr] at hp'
        exact run _ (by simp only [execOp]; rw [if_pos hv, hp'])
      | recv src k i =>
        obtain ⟨h1, h2, p, h3, h4⟩ := hm.matched r src k i hmem hr
        by_cases hs : Sent prog st src r k
        · have hmail := (hci.mail src r k h1 hr).2 ⟨hs, not_recvd_before hm hr ho⟩
          obtain ⟨v, hv⟩ := Option.isSome_iff_exists.1 hmail
          exact run _ (by simp only [execOp]; rw [if_pos ⟨h1, h2⟩, hv])
        · -- the sender has not come that far
          have hlt : st.pc src < (prog src).length := by
            by_contra hcon
            apply hs
            exact ⟨_, by rw [List.take_of_length_le (by omega)]; exact h3, p, rfl⟩
          have hop : (prog src)[st.pc src]? = some (prog src)[st.pc src] := List.getElem?_eq_getElem hlt
          have hle : prio src (prog src)[st.pc src] ≤ prio src (.send r k p) := by
            have hsplit : prog src = (prog src).take (st.pc src) ++ (prog src)[st.pc src] :: (prog src).drop (st.pc src + 1) := by
              rw [← List.drop_eq_getElem_cons hlt, List.take_append_drop]
            have hin : Op.send r k p ∈ (prog src)[st.pc src] :: (prog src).drop (st.pc src + 1) := by
              have := h3
              rw [hsplit, List.mem_append] at this
              rcases this with h | h
              · exact absurd ⟨_, h, p, rfl⟩ hs
              · exact h
            have hso := hm.sorted src h1
            rw [hsplit, List.pairwise_append, List.pairwise_cons] at hso
            rcases List.mem_cons.1 hin with h | h
            · exact Nat.le_of_eq (by rw [h])
            · exact hso.2.1.1 _ h
          exact ih _ (by omega) src _ h1 hop rfl
  obtain ⟨r, hr, hnf⟩ := hu
  have hlt : st.pc r < (prog r).length := by
    have := pc_le h r
    unfold Finished at hnf; omega
  exact key _ r _ hr (List.getElem?_eq_getElem hlt) rfl

/-- When everybody has finished no message is left over. -/
theorem no_leftover (hm : Matched W prog prio) {st : World} (h : Reach W prog st) (hf : ∀ r, r < W → Finished prog st r)
    (a b k : Nat) (ha : a < W) (hb : b < W) : st.mail a b k = none := by
  have hci := (chanInv hm h).mail a b k ha hb
  cases hmm : st.mail a b k with
  | none => rfl
  | some v =>
    rw [hmm] at hci
    obtain ⟨⟨op, ho, p, rfl⟩, hnr⟩ := hci.1 rfl
    obtain ⟨i, hi⟩ := hm.matched' a b k p (List.mem_of_mem_take ho) ha
    exact absurd ⟨_, by rw [hf b hb, List.take_length]; exact hi, i, rfl⟩ hnr

end Yacl.Link
