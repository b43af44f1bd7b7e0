import Verif.Channel.CloseModel
import Verif.SegmentTree.Props
import Mathlib.Logic.Relation

/-! Property theorems C09 and C10: link shutdown. -/
namespace Yacl.Channel.Close
open SegmentTree SegmentTree.Spec

/-- `complete` means exactly: all of `1..n` are recorded (for trees holding only ids in `1..n`). -/
theorem complete_iff (t : Tree) (n : Nat) (hs : Separated t.segments)
    (hr : ∀ k, Covers t.segments k → 1 ≤ k ∧ k ≤ n) :
    complete t n = true ↔ ∀ k, 1 ≤ k → k ≤ n → Covers t.segments k := by
  unfold complete
  by_cases hn : n = 0
  · subst hn; simp; intro k h1 h2; omega
  have hn' : (n == 0) = false := by simpa using hn
  rw [hn', Bool.false_or, Bool.not_eq_true', Bool.or_eq_false_iff, Bool.or_eq_false_iff]
  simp only [decide_eq_false_iff_not, Bool.not_eq_false', contains_iff _ hs, segmentsCount, gt_iff_lt, Nat.not_lt]
  obtain ⟨segs, cnt⟩ := t
  simp only at *
  constructor
  · rintro ⟨⟨h1, ⟨s, hs1, ha, hb⟩⟩, ⟨s', hs2, ha', hb'⟩⟩ k hk1 hk2
    match segs, h1 with
    | [], _ => simp at hs1
    | [x], _ =>
      simp at hs1 hs2
      rw [hs1] at ha hb; rw [hs2] at ha' hb'
      exact ⟨x, by simp, by omega, by omega⟩
  · intro hall
    refine ⟨⟨?_, hall 1 (by omega) (by omega)⟩, hall n (by omega) (by omega)⟩
    match segs, hs with
    | [], _ => simp
    | [x], _ => simp
    | x :: y :: rest, h =>
      exfalso
      rw [sep_cons, sep_cons] at h
      obtain ⟨h1, ⟨h2, h3, h4⟩, h5⟩ := h
      have hxy := h5 y (by simp)
      have e1 := hr x.1 ⟨x, by simp, by omega, h1⟩
      have e2 := hr y.1 ⟨y, by simp, by omega, h2⟩
      have e3 := hall x.2 (by omega) (by omega)
      rw [covers_cons, covers_cons] at e3
      rcases e3 with e | e | ⟨s, hs, e⟩
      · omega
      · omega
      · have := h4 s hs; omega

/-- Invariant of one side `s` against its peer `p`. -/
structure SInv (s p : Side) : Prop where
  sepR : Separated s.received.segments
  sepA : Separated s.ackIds.segments
  few : s.seq < 2 ^ 64 - 1
  recvR : ∀ k, Covers s.received.segments k → 1 ≤ k ∧ k ≤ p.seq
  /-- everything received is either unread or acknowledged -/
  disp : ∀ k, Covers s.received.segments k → k ∈ s.unread ∨ k ∈ s.acksSent
  unreadR : ∀ k ∈ s.unread, Covers s.received.segments k
  ackS : ∀ k ∈ s.acksSent, Covers s.received.segments k
  /-- ACKs received were sent by the peer -/
  ackR : ∀ k, Covers s.ackIds.segments k → k ∈ p.acksSent
  wait : s.phase ≠ .running → s.unread = []
  finR : ∀ n, s.fin = some n → p.finSent = some n
  finS : ∀ n, s.finSent = some n → n = s.seq ∧ s.phase ≠ .running
  finP : s.phase = .finSent ∨ s.phase = .asyncWait ∨ s.phase = .ackWait ∨ s.phase = .done → s.finSent = some s.seq
  gotAll : s.phase = .asyncWait ∨ s.phase = .ackWait ∨ s.phase = .done →
    s.fin = some p.seq ∧ ∀ k, 1 ≤ k → k ≤ p.seq → Covers s.received.segments k
  flush : s.phase = .ackWait ∨ s.phase = .done → flushed s p
  acked : s.phase = .done → ∀ k, 1 ≤ k → k ≤ s.seq → Covers s.ackIds.segments k

def Inv (j : Joint) : Prop := SInv j.a j.b ∧ SInv j.b j.a

theorem inv_init : SInv Side.init Side.init := by
  constructor <;> simp [Side.init, empty, Separated, Covers]

theorem contains_covers {t : Tree} (h : Separated t.segments) (k : Nat) :
    contains t k = true ↔ Covers t.segments k := contains_iff t h k

/-- Monotone growth of the facts a side exposes to its peer keeps the peer's invariant. -/
theorem peer_mono (s s' p : Side) (hs : SInv s p) (hp : SInv p s) (hss : SInv s' p)
    (h1 : s.seq ≤ s'.seq) (h1' : s.phase ≠ .running → s'.seq = s.seq)
    (h2 : ∀ k, k ∈ s.acksSent → k ∈ s'.acksSent) (h3 : ∀ n, s.finSent = some n → s'.finSent = some n)
    (h4 : ∀ k, Covers s.received.segments k → Covers s'.received.segments k)
    (h5 : ∀ k, Covers s.ackIds.segments k → Covers s'.ackIds.segments k)
    (h6 : s.fin.isSome → s'.fin.isSome) : SInv p s' := by
  have hnr : p.phase = .asyncWait ∨ p.phase = .ackWait ∨ p.phase = .done → s'.seq = s.seq := by
    intro h
    have := (hp.gotAll h).1
    have := hs.finS _ (hp.finR _ this)
    exact h1' this.2
  constructor
  · exact hp.sepR
  · exact hp.sepA
  · exact hp.few
  · intro k hk; have := hp.recvR k hk; omega
  · exact hp.disp
  · exact hp.unreadR
  · exact hp.ackS
  · intro k hk; exact h2 k (hp.ackR k hk)
  · exact hp.wait
  · intro n hn; exact h3 n (hp.finR n hn)
  · exact hp.finS
  · exact hp.finP
  · intro h; rw [hnr h]; exact hp.gotAll h
  · intro h
    obtain ⟨f1, f2, f3⟩ := hp.flush h
    refine ⟨?_, ?_, ?_⟩
    · intro k a b
      rw [contains_covers hss.sepR]
      exact h4 k ((contains_covers hs.sepR k).1 (f1 k a b))
    · intro k hk
      rw [contains_covers hss.sepA]
      exact h5 k ((contains_covers hs.sepA k).1 (f2 k hk))
    · intro hf; exact h6 (f3 hf)
  · exact hp.acked

theorem onMsg_spec (s p : Side) (h : SInv s p) (id : Nat) (hid : id < 2 ^ 64 - 1) :
    (Covers s.received.segments id ∧ s.onMsg id = s) ∨
    (∃ t, ¬ Covers s.received.segments id ∧ Separated t.segments ∧
      (∀ k, Covers t.segments k ↔ Covers s.received.segments k ∨ k = id) ∧
      s.onMsg id = if s.waiting then { s with received := t, acksSent := id :: s.acksSent }
        else { s with received := t, unread := id :: s.unread }) := by
  obtain ⟨g1, g2, g3, _⟩ := insert_spec s.received id h.sepR hid
  unfold Side.onMsg
  generalize SegmentTree.insert s.received id = q at *
  obtain ⟨t, b⟩ := q
  cases b with
  | false =>
    left
    simp at g3
    exact ⟨g3, rfl⟩
  | true =>
    right
    exact ⟨t, g3.1 rfl, g1, g2, rfl⟩

/-- One step of a side preserves both invariants. -/
theorem act_inv (s p s' : Side) (hs : SInv s p) (hp : SInv p s) (h : Act s p s') : SInv s' p ∧ SInv p s' := by
  cases h with
  | userSend h1 h2 =>
    have : SInv { s with seq := s.seq + 1 } p := by
      have hnf : s.finSent = none := by
        cases hf : s.finSent with
        | none => rfl
        | some n => exact absurd h1 (hs.finS n hf).2
      constructor
      · exact hs.sepR
      · exact hs.sepA
      · exact h2
      · exact hs.recvR
      · exact hs.disp
      · exact hs.unreadR
      · exact hs.ackS
      · exact hs.ackR
      · exact hs.wait
      · exact hs.finR
      · intro n hn; simp [hnf] at hn
      · intro h; simp [h1] at h
      · intro h; simp [h1] at h
      · intro h; simp [h1] at h
      · intro h; simp [h1] at h
    exact ⟨this, peer_mono s _ p hs hp this (by simp) (fun h => absurd h1 h) (fun _ h => h) (fun _ h => h) (fun _ h => h)
      (fun _ h => h) (fun h => h)⟩
  | userRecv id h1 h2 =>
    have : SInv { s with unread := s.unread.erase id, acksSent := id :: s.acksSent } p := by
      constructor
      · exact hs.sepR
      · exact hs.sepA
      · exact hs.few
      · exact hs.recvR
      · intro k hk
        by_cases hki : k = id
        · right; simp [hki]
        · rcases hs.disp k hk with h | h
          · left; exact (List.mem_erase_of_ne hki).2 h
          · right; simp [h]
      · intro k hk; exact hs.unreadR k (List.mem_of_mem_erase hk)
      · intro k hk
        simp only [List.mem_cons] at hk
        rcases hk with rfl | hk
        · exact hs.unreadR _ h2
        · exact hs.ackS k hk
      · exact hs.ackR
      · intro h; exact absurd h1 h
      · exact hs.finR
      · exact hs.finS
      · exact hs.finP
      · exact hs.gotAll
      · intro h; simp [h1] at h
      · exact hs.acked
    exact ⟨this, peer_mono s _ p hs hp this (by simp) (fun _ => rfl) (fun k h => by simp [h]) (fun _ h => h) (fun _ h => h)
      (fun _ h => h) (fun h => h)⟩
  | msg id h1 h2 h3 =>
    have hid : id < 2 ^ 64 - 1 := by have := hp.few; omega
    rcases onMsg_spec s p hs id hid with ⟨_, he⟩ | ⟨t, hn, ht, hc, he⟩
    · rw [he]; exact ⟨hs, hp⟩
    · rw [he]
      have hlate : ¬ (s.phase = .asyncWait ∨ s.phase = .ackWait ∨ s.phase = .done) := by
        intro h; exact hn ((hs.gotAll h).2 id h2 h3)
      split
      · rename_i hw
        have : SInv { s with received := t, acksSent := id :: s.acksSent } p := by
          constructor
          · exact ht
          · exact hs.sepA
          · exact hs.few
          · intro k hk
            rcases (hc k).1 hk with hk | rfl
            · exact hs.recvR k hk
            · exact ⟨h2, h3⟩
          · intro k hk
            rcases (hc k).1 hk with hk | rfl
            · rcases hs.disp k hk with h | h
              · exact Or.inl h
              · right; simp [h]
            · right; simp
          · intro k hk; exact (hc k).2 (Or.inl (hs.unreadR k hk))
          · intro k hk
            simp only [List.mem_cons] at hk
            rcases hk with rfl | hk
            · exact (hc k).2 (Or.inr rfl)
            · exact (hc k).2 (Or.inl (hs.ackS k hk))
          · exact hs.ackR
          · exact hs.wait
          · exact hs.finR
          · exact hs.finS
          · exact hs.finP
          · intro h; exact absurd h hlate
          · intro h; exact absurd (Or.inr h) hlate
          · exact hs.acked
        exact ⟨this, peer_mono s _ p hs hp this (by simp) (fun _ => rfl) (fun k h => by simp [h]) (fun _ h => h)
          (fun k h => (hc k).2 (Or.inl h)) (fun _ h => h) (fun h => h)⟩
      · rename_i hw
        have hrun : s.phase = .running := by
          simp only [Side.waiting, bne_iff_ne, ne_eq, Decidable.not_not] at hw; exact hw
        have : SInv { s with received := t, unread := id :: s.unread } p := by
          constructor
          · exact ht
          · exact hs.sepA
          · exact hs.few
          · intro k hk
            rcases (hc k).1 hk with hk | rfl
            · exact hs.recvR k hk
            · exact ⟨h2, h3⟩
          · intro k hk
            rcases (hc k).1 hk with hk | rfl
            · rcases hs.disp k hk with h | h
              · left; simp [h]
              · exact Or.inr h
            · left; simp
          · intro k hk
            simp only [List.mem_cons] at hk
            rcases hk with rfl | hk
            · exact (hc k).2 (Or.inr rfl)
            · exact (hc k).2 (Or.inl (hs.unreadR k hk))
          · intro k hk; exact (hc k).2 (Or.inl (hs.ackS k hk))
          · exact hs.ackR
          · intro h; exact absurd hrun h
          · exact hs.finR
          · exact hs.finS
          · exact hs.finP
          · intro h; exact absurd h hlate
          · intro h; exact absurd (Or.inr h) hlate
          · exact hs.acked
        exact ⟨this, peer_mono s _ p hs hp this (by simp) (fun _ => rfl) (fun _ h => h) (fun _ h => h)
          (fun k h => (hc k).2 (Or.inl h)) (fun _ h => h) (fun h => h)⟩
  | ack id h1 h2 =>
    have hcov := hp.ackS id h2
    have hid : id < 2 ^ 64 - 1 := by have := hp.recvR id hcov; have := hs.few; omega
    obtain ⟨g1, g2, _, _⟩ := insert_spec s.ackIds id hs.sepA hid
    have : SInv (s.onAck id) p := by
      unfold Side.onAck
      constructor
      · exact hs.sepR
      · exact g1
      · exact hs.few
      · exact hs.recvR
      · exact hs.disp
      · exact hs.unreadR
      · exact hs.ackS
      · intro k hk
        rcases (g2 k).1 hk with hk | rfl
        · exact hs.ackR k hk
        · exact h2
      · exact hs.wait
      · exact hs.finR
      · exact hs.finS
      · exact hs.finP
      · exact hs.gotAll
      · exact hs.flush
      · intro h; exact absurd h h1
    exact ⟨this, peer_mono s _ p hs hp this (by simp [Side.onAck]) (fun _ => rfl) (fun _ h => h) (fun _ h => h)
      (fun _ h => h) (fun k h => (g2 k).2 (Or.inl h)) (fun h => h)⟩
  | fin n h1 h2 =>
    unfold Side.onFin
    split
    · exact ⟨hs, hp⟩
    · rename_i hnone
      have : SInv { s with fin := some n } p := by
        constructor
        · exact hs.sepR
        · exact hs.sepA
        · exact hs.few
        · exact hs.recvR
        · exact hs.disp
        · exact hs.unreadR
        · exact hs.ackS
        · exact hs.ackR
        · exact hs.wait
        · intro m hm; simp at hm; subst hm; exact h2
        · exact hs.finS
        · exact hs.finP
        · intro h; have := (hs.gotAll h).1; rw [hnone] at this; simp at this
        · intro h; have := (hs.gotAll (Or.inr h)).1; rw [hnone] at this; simp at this
        · exact hs.acked
      exact ⟨this, peer_mono s _ p hs hp this (by simp) (fun _ => rfl) (fun _ h => h) (fun _ h => h)
        (fun _ h => h) (fun _ h => h) (fun _ => rfl)⟩
  | stop h1 =>
    have : SInv { s with phase := .stopped, acksSent := s.unread ++ s.acksSent, unread := [] } p := by
      constructor
      · exact hs.sepR
      · exact hs.sepA
      · exact hs.few
      · exact hs.recvR
      · intro k hk
        rcases hs.disp k hk with h | h <;> simp [h]
      · simp
      · intro k hk
        simp only [List.mem_append] at hk
        rcases hk with hk | hk
        · exact hs.unreadR k hk
        · exact hs.ackS k hk
      · exact hs.ackR
      · simp
      · exact hs.finR
      · intro n hn; exact ⟨(hs.finS n hn).1, by simp⟩
      · simp
      · simp
      · simp
      · simp
    exact ⟨this, peer_mono s _ p hs hp this (by simp) (fun _ => rfl) (fun k h => by simp [h]) (fun _ h => h)
      (fun _ h => h) (fun _ h => h) (fun h => h)⟩
  | sendFin h1 =>
    have : SInv { s with phase := .finSent, finSent := some s.seq } p := by
      constructor
      · exact hs.sepR
      · exact hs.sepA
      · exact hs.few
      · exact hs.recvR
      · exact hs.disp
      · exact hs.unreadR
      · exact hs.ackS
      · exact hs.ackR
      · intro _; exact hs.wait (by simp [h1])
      · exact hs.finR
      · simp
      · simp
      · simp
      · simp
      · simp
    exact ⟨this, peer_mono s _ p hs hp this (by simp) (fun _ => rfl) (fun k h => h)
      (fun n hn => by have := (hs.finS n hn).1; simp [this]) (fun _ h => h) (fun _ h => h) (fun h => h)⟩
  | gotAll n h1 h2 h3 =>
    have hpf := hp.finS n (hs.finR n h2)
    have hall := (complete_iff s.received n hs.sepR (by rw [hpf.1]; exact hs.recvR)).1 h3
    have : SInv { s with phase := .asyncWait } p := by
      constructor
      · exact hs.sepR
      · exact hs.sepA
      · exact hs.few
      · exact hs.recvR
      · exact hs.disp
      · exact hs.unreadR
      · exact hs.ackS
      · exact hs.ackR
      · intro _; exact hs.wait (by simp [h1])
      · exact hs.finR
      · intro m hm; exact ⟨(hs.finS m hm).1, by simp⟩
      · intro _; exact hs.finP (Or.inl h1)
      · intro _; exact ⟨by rw [← hpf.1]; exact h2, by rw [← hpf.1]; exact hall⟩
      · simp
      · simp
    exact ⟨this, peer_mono s _ p hs hp this (by simp) (fun _ => rfl) (fun k h => h)
      (fun n h => h) (fun _ h => h) (fun _ h => h) (fun h => h)⟩
  | asyncDone h1 h2 =>
    have : SInv { s with phase := .ackWait } p := by
      constructor
      · exact hs.sepR
      · exact hs.sepA
      · exact hs.few
      · exact hs.recvR
      · exact hs.disp
      · exact hs.unreadR
      · exact hs.ackS
      · exact hs.ackR
      · intro _; exact hs.wait (by simp [h1])
      · exact hs.finR
      · intro m hm; exact ⟨(hs.finS m hm).1, by simp⟩
      · intro _; exact hs.finP (by simp [h1])
      · intro _; exact hs.gotAll (by simp [h1])
      · intro _; exact h2
      · simp
    exact ⟨this, peer_mono s _ p hs hp this (by simp) (fun _ => rfl) (fun k h => h)
      (fun n h => h) (fun _ h => h) (fun _ h => h) (fun h => h)⟩
  | acked h1 h2 =>
    have hrange : ∀ k, Covers s.ackIds.segments k → 1 ≤ k ∧ k ≤ s.seq := by
      intro k hk; exact hp.recvR k (hp.ackS k (hs.ackR k hk))
    have hall := (complete_iff s.ackIds s.seq hs.sepA hrange).1 h2
    have : SInv { s with phase := .done } p := by
      constructor
      · exact hs.sepR
      · exact hs.sepA
      · exact hs.few
      · exact hs.recvR
      · exact hs.disp
      · exact hs.unreadR
      · exact hs.ackS
      · exact hs.ackR
      · intro _; exact hs.wait (by simp [h1])
      · exact hs.finR
      · intro m hm; exact ⟨(hs.finS m hm).1, by simp⟩
      · intro _; exact hs.finP (by simp [h1])
      · intro _; exact hs.gotAll (by simp [h1])
      · intro _; exact hs.flush (by simp [h1])
      · intro _; exact hall
    exact ⟨this, peer_mono s _ p hs hp this (by simp) (fun _ => rfl) (fun k h => h)
      (fun n h => h) (fun _ h => h) (fun _ h => h) (fun h => h)⟩

theorem reachable_inv (j : Joint) (h : Reachable j) : Inv j := by
  induction h with
  | init => exact ⟨inv_init, inv_init⟩
  | step j j' _ hs ih =>
    cases hs with
    | left s' ha => exact act_inv _ _ _ ih.1 ih.2 ha
    | right s' ha =>
      have := act_inv _ _ _ ih.2 ih.1 ha
      exact ⟨this.2, this.1⟩

/-- **C09** (left side; the system is symmetric, see `C09_close_loses_nothing_right`). In every reachable state in which a
side's shutdown has returned: every message the peer ever sent has reached this side and was acknowledged (read by the
user or swept up), every message this side sent has reached the peer and its acknowledgement has come back, the peer can no
longer send messages, and nothing the peer has issued is still undelivered when the port closes. -/
theorem C09_close_loses_nothing (j : Joint) (h : Reachable j) (hd : j.a.phase = .done) :
    (∀ k, 1 ≤ k → k ≤ j.b.seq → contains j.a.received k = true ∧ k ∈ j.a.acksSent) ∧
    (∀ k, 1 ≤ k → k ≤ j.a.seq → contains j.b.received k = true ∧ k ∈ j.b.acksSent ∧ contains j.a.ackIds k = true) ∧
    j.b.phase ≠ .running ∧
    flushed j.b j.a := by
  obtain ⟨ia, ib⟩ := reachable_inv j h
  have hw : j.a.unread = [] := ia.wait (by simp [hd])
  have hga := ia.gotAll (by simp [hd])
  have hack := ia.acked hd
  refine ⟨?_, ?_, ?_, ?_⟩
  · intro k h1 h2
    have hc := hga.2 k h1 h2
    refine ⟨(contains_covers ia.sepR k).2 hc, ?_⟩
    rcases ia.disp k hc with hh | hh
    · rw [hw] at hh; simp at hh
    · exact hh
  · intro k h1 h2
    have hc := hack k h1 h2
    have := ia.ackR k hc
    exact ⟨(contains_covers ib.sepR k).2 (ib.ackS k this), this, (contains_covers ia.sepA k).2 hc⟩
  · exact (ib.finS _ (ia.finR _ hga.1)).2
  · refine ⟨?_, ?_, ?_⟩
    · intro k h1 h2; exact (contains_covers ia.sepR k).2 (hga.2 k h1 h2)
    · intro k hk
      rw [contains_covers ia.sepA]
      have := ib.recvR k (ib.ackS k hk)
      exact hack k this.1 this.2
    · intro _; rw [hga.1]; rfl

theorem reachable_swap (j : Joint) (h : Reachable j) : Reachable ⟨j.b, j.a⟩ := by
  induction h with
  | init => exact .init
  | step j j' _ hs ih =>
    cases hs with
    | left s' ha => exact .step _ _ ih (.right ⟨j.b, j.a⟩ s' ha)
    | right s' ha => exact .step _ _ ih (.left ⟨j.b, j.a⟩ s' ha)

theorem C09_close_loses_nothing_right (j : Joint) (h : Reachable j) (hd : j.b.phase = .done) :
    (∀ k, 1 ≤ k → k ≤ j.a.seq → contains j.b.received k = true ∧ k ∈ j.b.acksSent) ∧
    (∀ k, 1 ≤ k → k ≤ j.b.seq → contains j.a.received k = true ∧ k ∈ j.a.acksSent ∧ contains j.b.ackIds k = true) ∧
    j.a.phase ≠ .running ∧
    flushed j.a j.b :=
  C09_close_loses_nothing ⟨j.b, j.a⟩ (reachable_swap j h) hd

/-! ### C10: progress and termination -/

/-- Ids of `1..n` not recorded in a tree. -/
def missing (t : Tree) (n : Nat) : Nat := ((List.range n).filter (fun k => !contains t (k + 1))).length

def phaseRank : Phase → Nat
  | .running => 5 | .stopped => 4 | .finSent => 3 | .asyncWait => 2 | .ackWait => 1 | .done => 0

/-- Work left for side `s` with peer `p`. -/
def work (s p : Side) : Nat :=
  missing s.received p.seq + missing s.ackIds s.seq + (if s.fin.isSome then 0 else 1) + phaseRank s.phase

def totalWork (j : Joint) : Nat := work j.a j.b + work j.b j.a

/-- A protocol step that makes progress: strictly less work is left. -/
def Progress (j j' : Joint) : Prop := Step j j' ∧ totalWork j' < totalWork j

theorem missing_lt (t t' : Tree) (n id : Nat) (h1 : 1 ≤ id) (h2 : id ≤ n)
    (hm : ∀ k, contains t k = true → contains t' k = true) (hn : contains t id = false) (hy : contains t' id = true) :
    missing t' n < missing t n := by
  unfold missing
  have key : ∀ (l : List Nat), (id - 1) ∈ l →
      (l.filter (fun k => !contains t' (k + 1))).length < (l.filter (fun k => !contains t (k + 1))).length := by
    intro l
    have le : ∀ l : List Nat, (l.filter (fun k => !contains t' (k + 1))).length ≤ (l.filter (fun k => !contains t (k + 1))).length := by
      intro l
      induction l with
      | nil => simp
      | cons a l ih =>
        simp only [List.filter_cons]
        cases h : contains t (a + 1) with
        | true => simp [hm _ h, ih]
        | false => cases h' : contains t' (a + 1) <;> simp <;> omega
    induction l with
    | nil => simp
    | cons a l ih =>
      intro hmem
      simp only [List.mem_cons] at hmem
      rcases hmem with rfl | hmem
      · have e : id - 1 + 1 = id := by omega
        simp only [List.filter_cons, e, hn, hy]
        have := le l
        simp; omega
      · have := ih hmem
        simp only [List.filter_cons]
        cases h : contains t (a + 1) with
        | true => simp [hm _ h, this]
        | false => cases h' : contains t' (a + 1) <;> simp <;> omega
  exact key _ (List.mem_range.2 (by omega))

/-- Local progress: if something issued by `p` has not been presented to `s`, or `s` can advance, there is a step of `s`
that reduces the work. -/
theorem side_progress (s p : Side) (hs : SInv s p) (hp : SInv p s) (hrs : s.phase ≠ .running) (hrp : p.phase ≠ .running)
    (hnd : s.phase ≠ .done)
    (hcase : ¬ flushed p s ∨ s.phase = .stopped ∨ (p.phase ≠ .stopped ∧ flushed s p)) :
    ∃ s', Act s p s' ∧ work s' p < work s p ∧ s'.seq = s.seq := by
  by_cases hfl : flushed p s
  · by_cases hst : s.phase = .stopped
    · exact ⟨_, .sendFin s p hst, by simp [work, hst, phaseRank], rfl⟩
    · have hc : p.phase ≠ .stopped ∧ flushed s p := by
        rcases hcase with h | h | h
        · exact absurd hfl h
        · exact absurd h hst
        · exact h
      obtain ⟨hps, hsf⟩ := hc
      have hpfin : p.finSent = some p.seq := by
        apply hp.finP
        cases hpp : p.phase <;> simp_all
      obtain ⟨f1, f2, f3⟩ := hfl
      have hcov : ∀ k, 1 ≤ k → k ≤ p.seq → Covers s.received.segments k :=
        fun k a b => (contains_covers hs.sepR k).1 (f1 k a b)
      have hfin : s.fin = some p.seq := by
        have := f3 (by rw [hpfin]; rfl)
        cases hf : s.fin with
        | none => rw [hf] at this; simp at this
        | some m => have := hs.finR m hf; rw [hpfin] at this; exact this.symm
      cases hph : s.phase with
      | running => exact absurd hph hrs
      | stopped => exact absurd hph hst
      | done => exact absurd hph hnd
      | finSent =>
        refine ⟨_, .gotAll s p p.seq hph hfin ?_, ?_, rfl⟩
        · exact (complete_iff _ _ hs.sepR hs.recvR).2 hcov
        · simp [work, hph, phaseRank]
      | asyncWait => exact ⟨_, .asyncDone s p hph hsf, by simp [work, hph, phaseRank], rfl⟩
      | ackWait =>
        have hrange : ∀ k, Covers s.ackIds.segments k → 1 ≤ k ∧ k ≤ s.seq := by
          intro k hk; exact hp.recvR k (hp.ackS k (hs.ackR k hk))
        refine ⟨_, .acked s p hph ((complete_iff _ _ hs.sepA hrange).2 ?_), by simp [work, hph, phaseRank], rfl⟩
        intro k h1 h2
        obtain ⟨g1, _, _⟩ := hsf
        have hk := (contains_covers hp.sepR k).1 (g1 k h1 h2)
        rcases hp.disp k hk with hh | hh
        · rw [hp.wait hrp] at hh; simp at hh
        · exact (contains_covers hs.sepA k).1 (f2 k hh)
  · -- something undelivered
    have hex : (∃ id, 1 ≤ id ∧ id ≤ p.seq ∧ contains s.received id = false) ∨
        (∃ id ∈ p.acksSent, contains s.ackIds id = false) ∨ (p.finSent.isSome ∧ s.fin = none) := by
      by_contra hcon
      simp only [not_or] at hcon
      obtain ⟨c1, c2, c3⟩ := hcon
      apply hfl
      refine ⟨?_, ?_, ?_⟩
      · intro k a b
        by_contra hcc
        exact c1 ⟨k, a, b, by simpa using hcc⟩
      · intro k hk
        by_contra hcc
        exact c2 ⟨k, hk, by simpa using hcc⟩
      · intro hf
        cases hff : s.fin with
        | none => exact absurd ⟨hf, hff⟩ c3
        | some _ => rfl
    rcases hex with ⟨id, h1, h2, h3⟩ | ⟨id, h1, h2⟩ | ⟨h1, h2⟩
    · have hid : id < 2 ^ 64 - 1 := by have := hp.few; omega
      refine ⟨_, .msg s p id hnd h1 h2, ?_⟩
      rcases onMsg_spec s p hs id hid with ⟨hc, _⟩ | ⟨t, hn, ht, hc, he⟩
      · rw [(contains_covers hs.sepR id).2 hc] at h3; simp at h3
      · have hw : s.waiting = true := by simp [Side.waiting, hrs]
        rw [he, if_pos hw]
        refine ⟨?_, rfl⟩
        have := missing_lt s.received t p.seq id h1 h2
          (fun k hk => (contains_covers ht k).2 ((hc k).2 (Or.inl ((contains_covers hs.sepR k).1 hk)))) h3
          ((contains_covers ht id).2 ((hc id).2 (Or.inr rfl)))
        simp only [work]
        omega
    · have hr := hp.recvR id (hp.ackS id h1)
      have hid : id < 2 ^ 64 - 1 := by have := hs.few; omega
      obtain ⟨g1, g2, _, _⟩ := insert_spec s.ackIds id hs.sepA hid
      refine ⟨_, .ack s p id hnd h1, ?_, rfl⟩
      have := missing_lt s.ackIds (insert s.ackIds id).1 s.seq id hr.1 hr.2
        (fun k hk => (contains_covers g1 k).2 ((g2 k).2 (Or.inl ((contains_covers hs.sepA k).1 hk)))) h2
        ((contains_covers g1 id).2 ((g2 id).2 (Or.inr rfl)))
      unfold work Side.onAck
      dsimp only
      omega
    · obtain ⟨n, hn⟩ := Option.isSome_iff_exists.1 h1
      refine ⟨_, .fin s p n hnd hn, ?_, ?_⟩
      · simp [Side.onFin, h2, work]
      · simp [Side.onFin, h2]

/-- **C10.** In every reachable state in which both sides have called shutdown and not both have returned, some step that
strictly decreases the remaining work is enabled. So no reachable state is a deadlock, and as long as such
steps are taken both shutdowns return after at most `totalWork` of them. -/
theorem C10_shutdown_progress (j : Joint) (h : Reachable j) (ha : j.a.phase ≠ .running) (hb : j.b.phase ≠ .running)
    (hnd : ¬ (j.a.phase = .done ∧ j.b.phase = .done)) : ∃ j', Progress j j' := by
  obtain ⟨ia, ib⟩ := reachable_inv j h
  -- generic lifting
  have liftA : (∃ s', Act j.a j.b s' ∧ work s' j.b < work j.a j.b ∧ s'.seq = j.a.seq) → ∃ j', Progress j j' := by
    rintro ⟨s', h1, h2, h3⟩
    refine ⟨⟨s', j.b⟩, .left j s' h1, ?_⟩
    have : work j.b s' = work j.b j.a := by simp [work, h3]
    simp only [totalWork, this]; omega
  have liftB : (∃ s', Act j.b j.a s' ∧ work s' j.a < work j.b j.a ∧ s'.seq = j.b.seq) → ∃ j', Progress j j' := by
    rintro ⟨s', h1, h2, h3⟩
    refine ⟨⟨j.a, s'⟩, .right j s' h1, ?_⟩
    have : work j.a s' = work j.a j.b := by simp [work, h3]
    simp only [totalWork, this]; omega
  have doneFlush : ∀ s p : Side, SInv s p → SInv p s → s.phase = .done → flushed p s := by
    intro s p is ip hd
    have hga := is.gotAll (by simp [hd])
    refine ⟨?_, ?_, ?_⟩
    · intro k h1 h2; exact (contains_covers is.sepR k).2 (hga.2 k h1 h2)
    · intro k hk
      rw [contains_covers is.sepA]
      have := ip.recvR k (ip.ackS k hk)
      exact is.acked hd k this.1 this.2
    · intro _; rw [hga.1]; rfl
  -- everything delivered both ways?
  by_cases fa : flushed j.b j.a
  · by_cases fb : flushed j.a j.b
    · by_cases sa : j.a.phase = .stopped
      · exact liftA (side_progress _ _ ia ib ha hb (by simp [sa]) (Or.inr (Or.inl sa)))
      · by_cases sb : j.b.phase = .stopped
        · exact liftB (side_progress _ _ ib ia hb ha (by simp [sb]) (Or.inr (Or.inl sb)))
        · by_cases da : j.a.phase = .done
          · have db : j.b.phase ≠ .done := fun hc => hnd ⟨da, hc⟩
            exact liftB (side_progress _ _ ib ia hb ha db (Or.inr (Or.inr ⟨sa, fa⟩)))
          · exact liftA (side_progress _ _ ia ib ha hb da (Or.inr (Or.inr ⟨sb, fb⟩)))
    · by_cases db : j.b.phase = .done
      · exact absurd (doneFlush _ _ ib ia db) fb
      · exact liftB (side_progress _ _ ib ia hb ha db (Or.inl fb))
  · by_cases da : j.a.phase = .done
    · exact absurd (doneFlush _ _ ia ib da) fa
    · exact liftA (side_progress _ _ ia ib ha hb da (Or.inl fa))

theorem insert_dup (t : Tree) (x : Nat) (h : (SegmentTree.insert t x).2 = false) : (SegmentTree.insert t x).1 = t := by
  unfold SegmentTree.insert at h ⊢
  split <;> simp_all

/-- A step of one side in shutdown changes nothing or reduces that side's work. -/
theorem act_work (s p s' : Side) (hs : SInv s p) (hp : SInv p s) (hne : s.phase ≠ .running) (hact : Act s p s') :
    s' = s ∨ (work s' p < work s p ∧ s'.seq = s.seq) := by
  cases hact with
  | userSend h1 h2 => exact absurd h1 hne
  | userRecv id h1 h2 => exact absurd h1 hne
  | msg id hnd h1 h2 =>
    have hid : id < 2 ^ 64 - 1 := by have := hp.few; omega
    rcases onMsg_spec s p hs id hid with ⟨_, he⟩ | ⟨t, hn, ht, hc, he⟩
    · exact Or.inl he
    · right
      have hw : s.waiting = true := by simp [Side.waiting, hne]
      rw [he, if_pos hw]
      refine ⟨?_, rfl⟩
      have h3 : contains s.received id = false := by
        rw [← Bool.not_eq_true, contains_covers hs.sepR]; exact hn
      have := missing_lt s.received t p.seq id h1 h2
        (fun k hk => (contains_covers ht k).2 ((hc k).2 (Or.inl ((contains_covers hs.sepR k).1 hk)))) h3
        ((contains_covers ht id).2 ((hc id).2 (Or.inr rfl)))
      simp only [work]
      omega
  | ack id hnd h1 =>
    have hr := hp.recvR id (hp.ackS id h1)
    have hid : id < 2 ^ 64 - 1 := by have := hs.few; omega
    obtain ⟨g1, g2, g3, _⟩ := insert_spec s.ackIds id hs.sepA hid
    by_cases hd : (SegmentTree.insert s.ackIds id).2 = true
    · right
      refine ⟨?_, rfl⟩
      have h2 : contains s.ackIds id = false := by
        rw [← Bool.not_eq_true, contains_covers hs.sepA]; exact g3.1 hd
      have := missing_lt s.ackIds (insert s.ackIds id).1 s.seq id hr.1 hr.2
        (fun k hk => (contains_covers g1 k).2 ((g2 k).2 (Or.inl ((contains_covers hs.sepA k).1 hk)))) h2
        ((contains_covers g1 id).2 ((g2 id).2 (Or.inr rfl)))
      unfold work Side.onAck
      dsimp only
      omega
    · left
      unfold Side.onAck
      rw [insert_dup _ _ (by simpa using hd)]
  | fin n hnd hn =>
    cases hf : s.fin with
    | some m => left; simp [Side.onFin, hf]
    | none => right; exact ⟨by simp [Side.onFin, hf, work], by simp [Side.onFin, hf]⟩
  | stop h1 => exact absurd h1 hne
  | sendFin h1 => right; exact ⟨by simp [work, h1, phaseRank], rfl⟩
  | gotAll n h1 h2 h3 => right; exact ⟨by simp [work, h1, phaseRank], rfl⟩
  | asyncDone h1 h2 => right; exact ⟨by simp [work, h1, phaseRank], rfl⟩
  | acked h1 h2 => right; exact ⟨by simp [work, h1, phaseRank], rfl⟩

/-- **C10**, second half: once both sides have called shutdown, whatever the schedule does, a step either changes nothing
(a repeated delivery) or uses up some of a finite amount of remaining work; there is no livelock. -/
theorem C10_no_livelock (j j' : Joint) (h : Reachable j) (ha : j.a.phase ≠ .running) (hb : j.b.phase ≠ .running)
    (hs : Step j j') : j' = j ∨ totalWork j' < totalWork j := by
  obtain ⟨ia, ib⟩ := reachable_inv j h
  cases hs with
  | left s' hact =>
    rcases act_work _ _ _ ia ib ha hact with rfl | ⟨h2, h3⟩
    · exact Or.inl rfl
    · right
      have : work j.b s' = work j.b j.a := by simp [work, h3]
      simp only [totalWork, this]; omega
  | right s' hact =>
    rcases act_work _ _ _ ib ia hb hact with rfl | ⟨h2, h3⟩
    · exact Or.inl rfl
    · right
      have : work j.a s' = work j.a j.b := by simp [work, h3]
      simp only [totalWork, this]; omega

/-- Non-vacuity: a reachable state with both sides in shutdown and a message of the left side still undelivered. -/
example : ∃ j, Reachable j ∧ j.a.phase = .stopped ∧ j.b.phase = .stopped ∧ j.a.seq = 1 ∧ contains j.b.received 1 = false := by
  let j1 : Joint := ⟨{ Side.init with seq := 1 }, Side.init⟩
  have r1 : Reachable j1 := .step _ _ .init (.left Joint.init _ (.userSend _ _ rfl (by decide)))
  have r2 := Reachable.step _ _ r1 (.left j1 _ (.stop _ _ rfl))
  have r3 := Reachable.step _ _ r2 (.right _ _ (.stop _ _ rfl))
  exact ⟨_, r3, rfl, rfl, rfl, by decide⟩

/-- Both shutdowns do return: from any reachable state with both sides in shutdown a run of progress steps ends with both
returned, and (C09) nothing lost. -/
theorem C10_shutdown_terminates (j : Joint) (h : Reachable j) (ha : j.a.phase ≠ .running) (hb : j.b.phase ≠ .running) :
    ∃ j', Reachable j' ∧ j'.a.phase = .done ∧ j'.b.phase = .done ∧ Relation.ReflTransGen Step j j' := by
  generalize hw : totalWork j = w
  induction w using Nat.strongRecOn generalizing j with
  | _ w ih =>
    by_cases hd : j.a.phase = .done ∧ j.b.phase = .done
    · exact ⟨j, h, hd.1, hd.2, .refl⟩
    · obtain ⟨j1, hs, hlt⟩ := C10_shutdown_progress j h ha hb hd
      have stay : ∀ s p s', Act s p s' → s.phase ≠ .running → s'.phase ≠ .running := by
        intro s p s' hact hne
        cases hact with
        | userSend h1 h2 => exact absurd h1 hne
        | userRecv id h1 h2 => exact absurd h1 hne
        | msg id h1 h2 h3 =>
          unfold Side.onMsg
          split
          · exact hne
          · split <;> exact hne
        | ack id h1 h2 => exact hne
        | fin n h1 h2 => unfold Side.onFin; split <;> exact hne
        | stop h1 => simp
        | sendFin h1 => simp
        | gotAll n h1 h2 h3 => simp
        | asyncDone h1 h2 => simp
        | acked h1 h2 => simp
      have hr1 := Reachable.step j j1 h hs
      have hph : j1.a.phase ≠ .running ∧ j1.b.phase ≠ .running := by
        cases hs with
        | left s' hact => exact ⟨stay _ _ _ hact ha, hb⟩
        | right s' hact => exact ⟨ha, stay _ _ _ hact hb⟩
      obtain ⟨j', r, d1, d2, t⟩ := ih (totalWork j1) (by omega) j1 hr1 hph.1 hph.2 rfl
      exact ⟨j', r, d1, d2, .head hs t⟩

end Yacl.Channel.Close
