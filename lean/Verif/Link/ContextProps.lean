import Verif.Link.ContextModel
import Verif.Link.CollectiveCalls
import Verif.Channel.Keys

/-! Property theorems C14, C15, C16 (and C63, C64, C65). -/
namespace Yacl.Link
open Yacl.Channel (Bytes decimal isDigit parseDigits_decimal decimal_isDigit decimal_ne_nil)

theorem decimal_inj {a b : Nat} (ha : a < 2 ^ 64) (hb : b < 2 ^ 64) (h : decimal a = decimal b) : a = b := by
  have := parseDigits_decimal a ha
  rw [h, parseDigits_decimal b hb] at this
  exact (Option.some.inj this).symm

theorem split_digits {a b r s : Bytes} {x y : UInt8} (ha : ∀ c ∈ a, isDigit c = true) (hb : ∀ c ∈ b, isDigit c = true)
    (hx : isDigit x = false) (hy : isDigit y = false) (h : a ++ x :: r = b ++ y :: s) : a = b ∧ r = s := by
  induction a generalizing b with
  | nil =>
    cases b with
    | nil => simp at h; exact ⟨rfl, h.2⟩
    | cons c b => simp at h; rw [h.1, hb c (by simp)] at hx; simp at hx
  | cons c a ih =>
    cases b with
    | nil => simp at h; rw [← h.1, ha c (by simp)] at hy; simp at hy
    | cons d b =>
      simp at h
      have := ih (b := b) (fun c hc => ha c (by simp [hc])) (fun c hc => hb c (by simp [hc])) h.2
      exact ⟨by rw [h.1, this.1], this.2⟩

/-- What a P2P id looks like after the context id. -/
theorem p2p_inj {n s d n' s' d' : Nat} (hn : n < 2 ^ 64) (hs : s < 2 ^ 64) (hd : d < 2 ^ 64) (hn' : n' < 2 ^ 64)
    (hs' : s' < 2 ^ 64) (hd' : d' < 2 ^ 64) {p : Bytes}
    (h : p ++ sP2P ++ decimal n ++ sColon ++ decimal s ++ sArrow ++ decimal d =
      p ++ sP2P ++ decimal n' ++ sColon ++ decimal s' ++ sArrow ++ decimal d') : n = n' ∧ s = s' ∧ d = d' := by
  simp only [List.append_assoc, List.append_cancel_left_eq, sColon, sArrow, List.cons_append, List.nil_append] at h
  obtain ⟨h1, h2⟩ := split_digits (decimal_isDigit n) (decimal_isDigit n') (by decide) (by decide) h
  obtain ⟨h3, h4⟩ := split_digits (decimal_isDigit s) (decimal_isDigit s') (by decide) (by decide) h2
  simp at h4
  exact ⟨decimal_inj hn hn' h1, decimal_inj hs hs' h3, decimal_inj hd hd' h4⟩

theorem coll_ne_p2p {n m s d : Nat} {p : Bytes} :
    p ++ sColon ++ decimal n ≠ p ++ sP2P ++ decimal m ++ sColon ++ decimal s ++ sArrow ++ decimal d := by
  intro h
  simp only [List.append_assoc, List.append_cancel_left_eq, sColon, sP2P, List.cons_append, List.nil_append, List.cons.injEq,
    true_and] at h
  have := decimal_isDigit n 80 (by rw [h]; simp)
  exact absurd this (by decide)

/-- Ranks that fit in 64 bits. -/
def Use.Valid : Use → Prop
  | .collective => True
  | .p2p s d => s < 2 ^ 64 ∧ d < 2 ^ 64

/-- A byte string is an id that context `c` may still produce within `k` further uses. -/
def Fresh (c : Ids) (k : Nat) (b : Bytes) : Prop :=
  (∃ n, c.counter < n ∧ n ≤ c.counter + k ∧ b = c.id ++ sColon ++ decimal n) ∨
  (∃ s d n, s < 2 ^ 64 ∧ d < 2 ^ 64 ∧ c.p2p s d < n ∧ n < 2 ^ 31 ∧
    b = c.id ++ sP2P ++ decimal n ++ sColon ++ decimal s ++ sArrow ++ decimal d)

theorem run_fresh (us : List Use) : ∀ (c : Ids) (l : List Bytes), (∀ u ∈ us, u.Valid) → c.counter + us.length < 2 ^ 64 →
    (∀ s d, c.p2p s d < 2 ^ 31) → c.run us = some l → (∀ b ∈ l, Fresh c us.length b) ∧ l.Nodup := by
  induction us with
  | nil => intro c l _ _ _ h; simp [Ids.run] at h; subst h; simp
  | cons u us ih =>
    intro c l hv hlen hp h
    rw [List.length_cons] at hlen
    cases u with
    | collective =>
      simp only [Ids.run, Ids.use, Ids.nextId] at h
      obtain ⟨l', hl', rfl⟩ := Option.map_eq_some_iff.1 h
      have hmod : (c.counter + 1) % 2 ^ 64 = c.counter + 1 := Nat.mod_eq_of_lt (by omega)
      rw [hmod] at hl' ⊢
      obtain ⟨h1, h2⟩ := ih { c with counter := c.counter + 1 } l' (fun u hu => hv u (by simp [hu])) (by simp; omega) hp hl'
      constructor
      · intro b hb
        rcases List.mem_cons.1 hb with rfl | hb
        · left; exact ⟨c.counter + 1, by omega, by simp, rfl⟩
        · rcases h1 b hb with ⟨n, g1, g2, g3⟩ | g
          · left; exact ⟨n, by simp at g1; omega, by simp at g2 ⊢; omega, g3⟩
          · right; exact g
      · rw [List.nodup_cons]
        refine ⟨?_, h2⟩
        intro hin
        rcases h1 _ hin with ⟨n, g1, g2, g3⟩ | ⟨s, d, n, _, _, _, _, g⟩
        · simp only [List.append_assoc, List.append_cancel_left_eq] at g3
          have := decimal_inj (by omega) (by simp at g2; omega) g3
          simp at g1; omega
        · exact coll_ne_p2p g
    | p2p s d =>
      simp only [Ids.run, Ids.use, Ids.nextP2PId] at h
      split at h
      · rename_i hd; split at hd
        · simp at h
        · simp at hd
      · rename_i c' b hd
        split at hd
        · simp at hd
        · rename_i hne
          simp only [Option.some.injEq, Prod.mk.injEq] at hd
          obtain ⟨rfl, rfl⟩ := hd
          obtain ⟨l', hl', rfl⟩ := Option.map_eq_some_iff.1 h
          have hsd : s < 2 ^ 64 ∧ d < 2 ^ 64 := hv (.p2p s d) (by simp)
          have hps := hp s d
          obtain ⟨h1, h2⟩ := ih _ l' (fun u hu => hv u (by simp [hu])) (by simp; omega) (by
            intro s' d'; simp only; split
            · omega
            · exact hp s' d') hl'
          constructor
          · intro b hb
            rcases List.mem_cons.1 hb with rfl | hb
            · right; exact ⟨s, d, c.p2p s d + 1, hsd.1, hsd.2, by omega, by omega, rfl⟩
            · rcases h1 b hb with ⟨n, g1, g2, g3⟩ | ⟨s', d', n, g1, g2, g3, g4, g5⟩
              · left; exact ⟨n, g1, by simp at g2 ⊢; omega, g3⟩
              · right
                refine ⟨s', d', n, g1, g2, ?_, g4, g5⟩
                simp only at g3
                split at g3
                · rename_i e; rw [e.1, e.2]; omega
                · exact g3
          · rw [List.nodup_cons]
            refine ⟨?_, h2⟩
            intro hin
            rcases h1 _ hin with ⟨n, g1, g2, g3⟩ | ⟨s', d', n, g1, g2, g3, g4, g5⟩
            · exact coll_ne_p2p g3.symm
            · obtain ⟨e1, e2, e3⟩ := p2p_inj (by omega) hsd.1 hsd.2 (by omega) g1 g2 g5
              subst e2; subst e3
              simp at g3; omega

/-- **C14** (partial: histories of fewer than 2^64 uses in which no direction sends 2^31 or more messages - there the `int`
counter overflows, see `C14_p2p_counter_violated`). All ids generated by a fresh context, collective and P2P mixed in any
order, are pairwise distinct. -/
theorem C14_message_ids_distinct_partial (id : Bytes) (us : List Use) (hv : ∀ u ∈ us, u.Valid) (hlen : us.length < 2 ^ 64)
    (l : List Bytes) (hrun : (Ids.new id).run us = some l) : l.Nodup :=
  (run_fresh us (Ids.new id) l hv (by simpa [Ids.new] using hlen) (by simp [Ids.new]) hrun).2

theorem run_p2p_some (s d k : Nat) : ∀ (c : Ids), c.p2p s d + k < 2 ^ 31 →
    ∃ l, c.run (List.replicate k (.p2p s d)) = some l := by
  induction k with
  | zero => intro c _; exact ⟨[], rfl⟩
  | succ k ih =>
    intro c h
    obtain ⟨l, hl⟩ := ih { c with p2p := fun s' d' => if s' = s ∧ d' = d then c.p2p s d + 1 else c.p2p s' d' } (by simp; omega)
    rw [List.replicate_succ]
    simp only [Ids.run, Ids.use, Ids.nextP2PId]
    rw [if_neg (by omega)]
    simp only [hl]
    exact ⟨_, rfl⟩

/-- Non-vacuity of C14: 1000 messages 0→1 on a context called "root". -/
example : ∃ l, (Ids.new [114, 111, 111, 116]).run (List.replicate 1000 (.p2p 0 1)) = some l :=
  run_p2p_some 0 1 1000 _ (by simp [Ids.new])

theorem run_p2p_none (s d k : Nat) : ∀ (c : Ids), c.p2p s d < 2 ^ 31 → 2 ^ 31 ≤ c.p2p s d + k →
    c.run (List.replicate k (.p2p s d)) = none := by
  induction k with
  | zero => intro c h1 h2; omega
  | succ k ih =>
    intro c h1 h2
    rw [List.replicate_succ]
    simp only [Ids.run, Ids.use, Ids.nextP2PId]
    by_cases he : c.p2p s d = 2 ^ 31 - 1
    · rw [if_pos he]
    · rw [if_neg he]
      simp only
      rw [ih _ (by simp; omega) (by simp; omega)]
      rfl

/-- **C14 is violated** for long histories: 2^31 messages in one direction reach undefined behaviour (signed overflow of the
`int` counter). -/
theorem C14_p2p_counter_violated (id : Bytes) (s d : Nat) :
    (Ids.new id).run (List.replicate (2 ^ 31) (.p2p s d)) = none :=
  run_p2p_none s d (2 ^ 31) (Ids.new id) (by simp [Ids.new]) (by simp [Ids.new])

/-- Splitting at the last byte outside a class is unique. -/
theorem split_last {P : UInt8 → Bool} {a b r s : Bytes} {x y : UInt8} (hr : ∀ c ∈ r, P c = true) (hs : ∀ c ∈ s, P c = true)
    (hx : P x = false) (hy : P y = false) (h : a ++ x :: r = b ++ y :: s) : a = b ∧ x = y ∧ r = s := by
  have h' : r.reverse ++ x :: a.reverse = s.reverse ++ y :: b.reverse := by
    have := congrArg List.reverse h
    simpa using this
  have gen : ∀ (p q u v : Bytes), (∀ c ∈ p, P c = true) → (∀ c ∈ q, P c = true) → p ++ x :: u = q ++ y :: v →
      p = q ∧ x = y ∧ u = v := by
    intro p
    induction p with
    | nil =>
      intro q u v _ hq h
      cases q with
      | nil => simp at h; exact ⟨rfl, h⟩
      | cons c q => simp at h; rw [h.1, hq c (by simp)] at hx; simp at hx
    | cons c p ih =>
      intro q u v hp hq h
      cases q with
      | nil => simp at h; rw [← h.1, hp c (by simp)] at hy; simp at hy
      | cons d q =>
        simp at h
        have := ih q u v (fun c hc => hp c (by simp [hc])) (fun c hc => hq c (by simp [hc])) h.2
        exact ⟨by rw [h.1, this.1], this.2⟩
  obtain ⟨h1, h2, h3⟩ := gen _ _ _ _ (by simpa using hr) (by simpa using hs) h'
  exact ⟨by simpa using h3, h2, by simpa using h1⟩

/-- Form of an id: collective or P2P. -/
def IdForm (p : Bytes) (b : Bytes) : Prop :=
  (∃ n, b = p ++ sColon ++ decimal n) ∨
    ∃ n s d, b = p ++ sP2P ++ decimal n ++ sColon ++ decimal s ++ sArrow ++ decimal d

theorem notColon_digit {c : UInt8} (h : isDigit c = true) : (c != 58) = true := by
  simp only [isDigit, Bool.and_eq_true, decide_eq_true_eq] at h
  rw [bne_iff_ne]
  rintro rfl
  exact absurd h.2 (by decide)

theorem idForm_inj {p q b : Bytes} (h : IdForm p b) (h' : IdForm q b) : p = q := by
  have dig : ∀ n, ∀ c ∈ decimal n, (c != 58) = true := fun n c hc => notColon_digit (decimal_isDigit n c hc)
  have arrow : ∀ s d, ∀ c ∈ decimal s ++ sArrow ++ decimal d, (c != 58) = true := by
    intro s d c hc
    rw [List.mem_append, List.mem_append] at hc
    rcases hc with (hc | hc) | hc
    · exact dig s c hc
    · simp [sArrow] at hc; rcases hc with rfl | rfl <;> decide
    · exact dig d c hc
  have noArrow : ∀ n s d, decimal n ≠ decimal s ++ sArrow ++ decimal d := by
    intro n s d h
    have := decimal_isDigit n 45 (by rw [h]; simp [sArrow])
    exact absurd this (by decide)
  have e1 : ∀ (p : Bytes) n, p ++ sColon ++ decimal n = p ++ 58 :: decimal n := by intro p n; simp [sColon]
  have e2 : ∀ (p : Bytes) n s d, p ++ sP2P ++ decimal n ++ sColon ++ decimal s ++ sArrow ++ decimal d =
      (p ++ sP2P ++ decimal n) ++ 58 :: (decimal s ++ sArrow ++ decimal d) := by intros; simp [sColon]
  rcases h with ⟨n, h⟩ | ⟨n, s, d, h⟩ <;> rcases h' with ⟨n', h'⟩ | ⟨n', s', d', h'⟩
  · rw [h, e1, e1] at h'
    exact (split_last (P := (· != 58)) (dig n) (dig n') (by decide) (by decide) h').1
  · rw [h, e1, e2] at h'
    exact absurd (split_last (P := (· != 58)) (dig n) (arrow s' d') (by decide) (by decide) h').2.2 (noArrow _ _ _)
  · rw [h, e2, e1] at h'
    exact absurd (split_last (P := (· != 58)) (arrow s d) (dig n') (by decide) (by decide) h').2.2.symm (noArrow _ _ _)
  · rw [h, e2, e2] at h'
    have h1 := (split_last (P := (· != 58)) (arrow s d) (arrow s' d') (by decide) (by decide) h').1
    have e3 : ∀ (p : Bytes) n, p ++ sP2P ++ decimal n = (p ++ [58, 80, 50, 80]) ++ 45 :: decimal n := by intro p n; simp [sP2P]
    rw [e3, e3] at h1
    have h2 := (split_last (P := isDigit) (decimal_isDigit n) (decimal_isDigit n') (by decide) (by decide) h1).1
    exact List.append_cancel_right h2

theorem run_form (us : List Use) : ∀ (c : Ids) (l : List Bytes), c.run us = some l → ∀ b ∈ l, IdForm c.id b := by
  induction us with
  | nil => intro c l h; simp [Ids.run] at h; subst h; simp
  | cons u us ih =>
    intro c l h b hb
    simp only [Ids.run] at h
    split at h
    · simp at h
    · rename_i c' b' hu
      obtain ⟨l', hl', rfl⟩ := Option.map_eq_some_iff.1 h
      have hc : c'.id = c.id ∧ IdForm c.id b' := by
        cases u with
        | collective =>
          simp only [Ids.use, Ids.nextId, Option.some.injEq, Prod.mk.injEq] at hu
          obtain ⟨rfl, rfl⟩ := hu
          exact ⟨rfl, Or.inl ⟨_, rfl⟩⟩
        | p2p s d =>
          simp only [Ids.use, Ids.nextP2PId] at hu
          split at hu
          · simp at hu
          · simp only [Option.some.injEq, Prod.mk.injEq] at hu
            obtain ⟨rfl, rfl⟩ := hu
            exact ⟨rfl, Or.inr ⟨_, _, _, rfl⟩⟩
      rcases List.mem_cons.1 hb with rfl | hb
      · exact hc.2
      · have := ih c' l' hl' b hb
        rwa [hc.1] at this

/-- **C63.** Contexts sharing channels (parent, children, sub-worlds): if their context ids differ, no message id of one is
ever a message id of the other, whatever bytes the ids contain. -/
theorem C63_contexts_do_not_interfere (id id' : Bytes) (hne : id ≠ id') (us us' : List Use) (l l' : List Bytes)
    (h : (Ids.new id).run us = some l) (h' : (Ids.new id').run us' = some l') (b : Bytes) (hb : b ∈ l) : b ∉ l' :=
  fun hb' => hne (idForm_inj (run_form us _ l h b hb) (run_form us' _ l' h' b hb'))

/-- Non-vacuity of C63. -/
example : (Ids.new [97]).run [.collective] = some [[97, 58, 49]] ∧ (Ids.new [97, 45, 48]).run [.collective] = some [[97, 45, 48, 58, 49]] := by
  decide +kernel

/-! ### P2P matching -/

/-- What one party does with its context: sends to / receives from another party, or a collective. -/
inductive Act where
  | send (dst : Nat)
  | recv (src : Nat)
  | coll
deriving DecidableEq

/-- Party `me`'s action as a use of its context (context.cc L219-278: `Send*` uses `NextP2PId(rank_, dst)`, `Recv` uses
`NextP2PId(src, rank_)`). -/
def Act.use (me : Nat) : Act → Use
  | .send d => .p2p me d
  | .recv s => .p2p s me
  | .coll => .collective

/-- Ids a history of actions generates, restricted to one kind of action. -/
def idsOf (c : Ids) (me : Nat) (a : Act) : List Act → Option (List Bytes)
  | [] => some []
  | x :: xs =>
    match c.use (x.use me) with
    | none => none
    | some (c', b) => (idsOf c' me a xs).map (fun l => if x = a then b :: l else l)

/-- The id of message number `n` (from 1) in direction `s → d`. -/
def p2pId (id : Bytes) (s d n : Nat) : Bytes := id ++ sP2P ++ decimal n ++ sColon ++ decimal s ++ sArrow ++ decimal d

theorem idsOf_eq (me : Nat) (a : Act) (s d : Nat) (ha : a.use me = .p2p s d) (hsd : s ≠ d) : ∀ (xs : List Act) (c : Ids) (l : List Bytes),
    idsOf c me a xs = some l → l = (List.range (xs.count a)).map (fun i => p2pId c.id s d (c.p2p s d + 1 + i)) := by
  intro xs
  induction xs with
  | nil => intro c l h; simp [idsOf] at h; subst h; simp
  | cons x xs ih =>
    intro c l h
    simp only [idsOf] at h
    split at h
    · simp at h
    · rename_i c' b hu
      obtain ⟨l', hl', rfl⟩ := Option.map_eq_some_iff.1 h
      have := ih c' l' hl'
      have idc : c'.id = c.id := by
        cases hx : x.use me with
        | collective => rw [hx] at hu; simp only [Ids.use, Ids.nextId, Option.some.injEq, Prod.mk.injEq] at hu; rw [← hu.1]
        | p2p s' d' =>
          rw [hx] at hu; simp only [Ids.use, Ids.nextP2PId] at hu
          split at hu
          · simp at hu
          · simp only [Option.some.injEq, Prod.mk.injEq] at hu; rw [← hu.1]
      by_cases hxa : x = a
      · subst hxa
        rw [ha] at hu; simp only [Ids.use, Ids.nextP2PId] at hu
        split at hu
        · simp at hu
        · simp only [Option.some.injEq, Prod.mk.injEq] at hu
          obtain ⟨rfl, rfl⟩ := hu
          rw [if_pos rfl, List.count_cons_self, List.range_succ_eq_map, List.map_cons, List.map_map, this]
          refine congrArg₂ _ (by simp [p2pId]) ?_
          apply List.map_congr_left
          intro i _
          simp only [Function.comp_apply]
          rw [if_pos (by simp)]
          congr 1; omega
      · rw [if_neg hxa, List.count_cons_of_ne (fun e => hxa e), this, idc]
        have hpp : c'.p2p s d = c.p2p s d := by
          cases hx : x.use me with
          | collective => rw [hx] at hu; simp only [Ids.use, Ids.nextId, Option.some.injEq, Prod.mk.injEq] at hu; rw [← hu.1]
          | p2p s' d' =>
            rw [hx] at hu; simp only [Ids.use, Ids.nextP2PId] at hu
            split at hu
            · simp at hu
            · simp only [Option.some.injEq, Prod.mk.injEq] at hu; rw [← hu.1]
              simp only
              rw [if_neg]
              rintro ⟨rfl, rfl⟩
              apply hxa
              cases x <;> cases a <;> simp_all [Act.use]
        rw [hpp]

/-- **C64.** Point-to-point messages pair up in order: whatever else both parties do on their contexts, the id under which
party `b` makes its `n`-th `Recv` from `a` is the id under which `a` made its `n`-th send to `b`. -/
theorem C64_p2p_messages_pair_up (id : Bytes) (a b : Nat) (hab : a ≠ b) (xs ys : List Act) (sent recvd : List Bytes)
    (hs : idsOf (Ids.new id) a (.send b) xs = some sent) (hr : idsOf (Ids.new id) b (.recv a) ys = some recvd)
    (n : Nat) (hn : n < xs.count (.send b)) (hm : n < ys.count (.recv a)) :
    sent[n]? = recvd[n]? ∧ sent[n]?.isSome := by
  rw [idsOf_eq a (.send b) a b rfl hab xs _ sent hs, idsOf_eq b (.recv a) a b rfl hab ys _ recvd hr]
  simp [hn, hm]

/-- Non-vacuity of C64: interleavings with other traffic. -/
example : idsOf (Ids.new [97]) 0 (.send 1) [.coll, .send 1, .recv 1, .send 2, .send 1] =
    some [[97, 58, 80, 50, 80, 45, 49, 58, 48, 45, 62, 49], [97, 58, 80, 50, 80, 45, 50, 58, 48, 45, 62, 49]] := by
  decide +kernel

/-! ### Children -/

/-- The explicit ids of a history. -/
def explicitIds : List Birth → List Bytes
  | [] => []
  | .spawn [] :: bs => explicitIds bs
  | .spawn (x :: xs) :: bs => (x :: xs) :: explicitIds bs
  | .subWorld s :: bs => s :: explicitIds bs

theorem birth_ne_parent (c : Ids) (b : Birth) : (c.birth b).2 ≠ c.id := by
  intro h
  have := congrArg List.length h
  unfold Ids.birth at this
  split at this <;> simp [sDash] at this

/-- **C15**, first half: a child's id always differs from its parent's. -/
theorem C15_child_id_differs_from_parent (bs : List Birth) : ∀ (c : Ids), c.id ∉ c.births bs := by
  induction bs with
  | nil => intro c; simp [Ids.births]
  | cons b bs ih =>
    intro c h
    rcases List.mem_cons.1 h with h | h
    · exact birth_ne_parent c b h.symm
    · have e : (c.birth b).1.id = c.id := by unfold Ids.birth; split <;> rfl
      rw [← e] at h
      exact ih _ h

theorem births_form (bs : List Birth) : ∀ (c : Ids), c.child + bs.length < 2 ^ 64 → (explicitIds bs).Nodup →
    (∀ e ∈ explicitIds bs, ∀ n, e ≠ decimal n) → (c.births bs).Nodup ∧
    ∀ b ∈ c.births bs, (∃ e ∈ explicitIds bs, b = c.id ++ sDash ++ e) ∨
      ∃ n, c.child ≤ n ∧ n < c.child + bs.length ∧ b = c.id ++ sDash ++ decimal n := by
  induction bs with
  | nil => intro c _ _ _; simp [Ids.births]
  | cons b bs ih =>
    intro c hlen hnd hdec
    rw [List.length_cons] at hlen
    have expl : ∀ e, (c.birth b) = (c, c.id ++ sDash ++ e) → explicitIds (b :: bs) = e :: explicitIds bs →
        (c.births (b :: bs)).Nodup ∧ ∀ b' ∈ c.births (b :: bs), (∃ e ∈ explicitIds (b :: bs), b' = c.id ++ sDash ++ e) ∨
        ∃ n, c.child ≤ n ∧ n < c.child + (b :: bs).length ∧ b' = c.id ++ sDash ++ decimal n := by
      intro e hb he
      rw [he] at hnd hdec
      obtain ⟨h1, h2⟩ := ih c (by omega) (List.nodup_cons.1 hnd).2 (fun e he => hdec e (by simp [he]))
      have hbirths : c.births (b :: bs) = (c.id ++ sDash ++ e) :: c.births bs := by simp only [Ids.births, hb]
      rw [hbirths, he]
      constructor
      · rw [List.nodup_cons]
        refine ⟨?_, h1⟩
        intro hin
        rcases h2 _ hin with ⟨e', he', h⟩ | ⟨n, _, _, h⟩
        · rw [List.append_cancel_left_eq] at h; subst h; exact (List.nodup_cons.1 hnd).1 he'
        · rw [List.append_cancel_left_eq] at h; exact hdec e (by simp) n h
      · intro b' hb'
        rcases List.mem_cons.1 hb' with rfl | hb'
        · left; exact ⟨e, by simp, rfl⟩
        · rcases h2 _ hb' with ⟨e', he', h⟩ | ⟨n, g1, g2, h⟩
          · left; exact ⟨e', by simp [he'], h⟩
          · right; exact ⟨n, g1, by simp; omega, h⟩
    cases b with
    | subWorld s => exact expl s rfl rfl
    | spawn id =>
      cases id with
      | cons x xs => exact expl (x :: xs) rfl rfl
      | nil =>
        have hmod : (c.child + 1) % 2 ^ 64 = c.child + 1 := Nat.mod_eq_of_lt (by omega)
        simp only [explicitIds] at hnd hdec ⊢
        simp only [Ids.births, Ids.birth, hmod]
        obtain ⟨h1, h2⟩ := ih { c with child := c.child + 1 } (by simp; omega) hnd hdec
        constructor
        · rw [List.nodup_cons]
          refine ⟨?_, h1⟩
          intro hin
          rcases h2 _ hin with ⟨e', he', h⟩ | ⟨n, g1, g2, h⟩
          · simp only [List.append_cancel_left_eq] at h; exact hdec e' he' _ h.symm
          · simp only [List.append_cancel_left_eq] at h g1 g2
            have := decimal_inj (by omega) (by omega) h
            omega
        · intro b' hb'
          rcases List.mem_cons.1 hb' with rfl | hb'
          · right; exact ⟨c.child, by omega, by simp, rfl⟩
          · rcases h2 _ hb' with ⟨e', he', h⟩ | ⟨n, g1, g2, h⟩
            · left; exact ⟨e', he', h⟩
            · right; exact ⟨n, by simp at g1; omega, by simp at g2 ⊢; omega, h⟩

/-- **C15** (partial: the explicit ids passed to `Spawn` / `SubWorld` must be pairwise different and none may be a decimal
number): all children of a context have pairwise distinct ids. -/
theorem C15_children_distinct_partial (id : Bytes) (bs : List Birth) (hlen : bs.length < 2 ^ 64)
    (hnd : (explicitIds bs).Nodup) (hdec : ∀ e ∈ explicitIds bs, ∀ n, e ≠ decimal n) : ((Ids.new id).births bs).Nodup :=
  (births_form bs (Ids.new id) (by simpa [Ids.new] using hlen) hnd hdec).1

/-- Non-vacuity of C15: Spawn(), Spawn("x"), SubWorld("y"), Spawn(). -/
example : ((Ids.new [114]).births [.spawn [], .spawn [120], .subWorld [121], .spawn []]) =
    [[114, 45, 48], [114, 45, 120], [114, 45, 121], [114, 45, 49]] := by decide +kernel

/-- **C15 is violated** in general: `Spawn()` followed by `Spawn("0")` gives two children with the same id (so both use the
same message ids on the same channels); so does `SubWorld("0", …)`. -/
theorem C15_spawn_violated (id : Bytes) : ¬ ((Ids.new id).births [.spawn [], .spawn [48]]).Nodup ∧
    ¬ ((Ids.new id).births [.spawn [], .subWorld [48]]).Nodup := by
  have h : decimal 0 = [48] := by decide +kernel
  simp [Ids.births, Ids.birth, Ids.new, h]

/-- **C15 is violated** across generations as well: the grandchild `Spawn("a")->Spawn("b")` and the child `Spawn("a-b")`. -/
theorem C15_grandchild_violated (id : Bytes) :
    ((Ids.new ((Ids.new id).birth (.spawn [97])).2).birth (.spawn [98])).2 = ((Ids.new id).birth (.spawn [97, 45, 98])).2 := by
  simp [Ids.birth, Ids.new, sDash]

/-! ### Ring neighbours -/

/-- **C16**: ranks are always valid. -/
theorem C16_neighbours_are_ranks (W r s : Nat) (hW : 0 < W) : nextRank W r s < W ∧ prevRank W r s < W :=
  ⟨Nat.mod_lt _ hW, Nat.mod_lt _ hW⟩

/-- **C16** (partial: strides up to the world size): `NextRank(s)` is `s` places ahead on the ring, `PrevRank(s)` is `s` places
behind, and they are inverse to each other. -/
theorem C16_neighbours_inverse_partial (W r s : Nat) (hW : W < 2 ^ 62) (hr : r < W) (hs : s ≤ W) :
    (nextRank W r s = (r + s) % W ∧ prevRank W r s = (r + W - s) % W) ∧
    prevRank W (nextRank W r s) s = r ∧ nextRank W (prevRank W r s) s = r := by
  refine ⟨⟨nextRank_eq hW hr hs, prevRank_eq hW hr hs⟩, ?_⟩
  rcases Nat.lt_or_ge s W with h | h
  · exact ⟨prev_next hW hr h, next_prev hW hr h⟩
  · have : s = W := by omega
    subst this
    rw [nextRank_eq hW hr hs, prevRank_eq hW hr hs, Nat.add_mod_right, Nat.add_sub_cancel, Nat.mod_eq_of_lt hr,
      nextRank_eq hW hr hs, prevRank_eq hW hr hs, Nat.add_mod_right, Nat.add_sub_cancel, Nat.mod_eq_of_lt hr]
    exact ⟨rfl, rfl⟩

/-- **C16** for world sizes that are powers of two: all strides of 64 bits. -/
theorem C16_neighbours_inverse_pow2 (e r s : Nat) (he : e ≤ 62) (hr : r < 2 ^ e) (hs : s < 2 ^ 64) :
    prevRank (2 ^ e) (nextRank (2 ^ e) r s) s = r ∧ nextRank (2 ^ e) (prevRank (2 ^ e) r s) s = r := by
  have hd : 2 ^ e ∣ 2 ^ 64 := Nat.pow_dvd_pow 2 (by omega)
  have hp : ∀ a, prevRank (2 ^ e) a s = (a + (2 ^ 64 - s)) % 2 ^ e := by
    intro a
    unfold prevRank
    rw [Nat.mod_mod_of_dvd _ hd, Nat.mod_eq_of_lt hs, Nat.add_mod_right]
    congr 1; omega
  have hn : ∀ a, nextRank (2 ^ e) a s = (a + s) % 2 ^ e := by
    intro a; unfold nextRank; rw [Nat.mod_mod_of_dvd _ hd]
  have hz : (2 ^ 64) % 2 ^ e = 0 := Nat.mod_eq_zero_of_dvd hd
  constructor
  · rw [hp, hn, Nat.mod_add_mod, show r + s + (2 ^ 64 - s) = r + 2 ^ 64 by omega, Nat.add_mod, hz, Nat.add_zero, Nat.mod_mod,
      Nat.mod_eq_of_lt hr]
  · rw [hn, hp, Nat.mod_add_mod, show r + (2 ^ 64 - s) + s = r + 2 ^ 64 by omega, Nat.add_mod, hz, Nat.add_zero, Nat.mod_mod,
      Nat.mod_eq_of_lt hr]

/-- **C16 is violated** for strides beyond the ring: with 3 parties, stride 4, `PrevRank` of party 0 is 0 instead of 2, and
`NextRank` does not undo it. -/
theorem C16_large_stride_violated : prevRank 3 0 4 = 0 ∧ nextRank 3 (prevRank 3 0 4) 4 ≠ 0 ∧ nextRank 3 2 4 = 0 := by
  decide

/-- Non-vacuity of C16. -/
example : nextRank 5 3 4 = 2 ∧ prevRank 5 2 4 = 3 := by decide

/-! ### Sub-worlds -/

theorem partyRank_some {ps : List Bytes} : ∀ {x : Bytes} {i : Nat}, partyRank ps x = some i → ps[i]? = some x := by
  induction ps with
  | nil => intro x i h; simp [partyRank] at h
  | cons p ps ih =>
    intro x i h
    simp only [partyRank] at h
    split at h
    · rename_i j hj; simp at h; subst h; simpa using ih hj
    · split at h
      · simp at h; subst h; simp_all
      · simp at h

theorem partyRank_none {ps : List Bytes} : ∀ {x : Bytes}, partyRank ps x = none ↔ x ∉ ps := by
  induction ps with
  | nil => intro x; simp [partyRank]
  | cons p ps ih =>
    intro x
    simp only [partyRank]
    split
    · rename_i j hj
      have : x ∈ ps := by
        by_contra hc; rw [← ih] at hc; rw [hc] at hj; simp at hj
      simp [this]
    · rename_i hn
      rw [ih] at hn
      split
      · simp_all
      · rename_i hne
        simp [hn, Ne.symm hne]

theorem subWorldLoop_some {parties : List Bytes} {self : Nat} : ∀ (xs : List Bytes) (orig : List Nat) (nr : Nat) (o : List Nat) (n : Nat),
    subWorldLoop parties self xs orig nr = some (o, n) →
    ∃ is, o = orig ++ is ∧ xs.map (partyRank parties) = is.map some ∧
      ((n = nr ∧ self ∉ is) ∨ ∃ j, n = orig.length + j ∧ is[j]? = some self ∧ ∀ j', is[j']? = some self → j' ≤ j) := by
  intro xs
  induction xs with
  | nil =>
    intro orig nr o n h
    simp [subWorldLoop] at h
    exact ⟨[], by simp [h.1], by simp, Or.inl ⟨h.2.symm, by simp⟩⟩
  | cons x xs ih =>
    intro orig nr o n h
    simp only [subWorldLoop] at h
    split at h
    · simp at h
    · rename_i i hi
      obtain ⟨is, h1, h2, h3⟩ := ih _ _ _ _ h
      refine ⟨i :: is, by rw [h1]; simp, by simp [h2, hi], ?_⟩
      rcases h3 with ⟨h3, h4⟩ | ⟨j, h3, h4, h5⟩
      · by_cases his : i = self
        · right
          rw [if_pos his] at h3
          refine ⟨0, by omega, by simp [his], ?_⟩
          intro j' hj'
          cases j' with
          | zero => omega
          | succ j' => simp at hj'; exact absurd (List.mem_of_getElem? hj') h4
        · left
          rw [if_neg his] at h3
          exact ⟨h3, by simp [h4, Ne.symm his]⟩
      · right
        refine ⟨j + 1, by simp at h3; omega, by simpa using h4, ?_⟩
        intro j' hj'
        cases j' with
        | zero => omega
        | succ j' => simp at hj'; have := h5 j' hj'; omega

theorem subWorldLoop_none {parties : List Bytes} {self : Nat} : ∀ (xs : List Bytes) (orig : List Nat) (nr : Nat),
    subWorldLoop parties self xs orig nr = none ↔ ∃ x ∈ xs, x ∉ parties := by
  intro xs
  induction xs with
  | nil => intro orig nr; simp [subWorldLoop]
  | cons x xs ih =>
    intro orig nr
    simp only [subWorldLoop]
    split
    · rename_i h; rw [partyRank_none] at h; simp [h]
    · rename_i i h
      have : x ∈ parties := by by_contra hc; rw [← partyRank_none] at hc; rw [hc] at h; simp at h
      rw [ih]; simp [this]

theorem partyRank_unique {parties : List Bytes} (hnd : parties.Nodup) {x : Bytes} {i j : Nat} (h : partyRank parties x = some i)
    (hj : parties[j]? = some x) : i = j := by
  have hi := partyRank_some h
  obtain ⟨a, b⟩ := List.getElem?_eq_some_iff.1 hi
  obtain ⟨c, d⟩ := List.getElem?_eq_some_iff.1 hj
  exact (List.getElem_inj hnd).1 (b.trans d.symm)

/-- **C65.** Sub-worlds: with pairwise distinct party ids in the parent world and in the request, `SubWorld` succeeds exactly
when all requested parties exist and the caller is among them; then the caller's new rank is its position in the request and
new rank `i` is connected to the party with the `i`-th requested id - so all members agree on who has which rank. -/
theorem C65_subworld_consistent (parties sub : List Bytes) (self : Nat) (me : Bytes) (hnd : parties.Nodup) (hns : sub.Nodup)
    (hme : parties[self]? = some me) :
    (∀ newRank orig, subWorld parties self sub = some (newRank, orig) →
      sub[newRank]? = some me ∧ orig.length = sub.length ∧
      ∀ (i : Nat) x, sub[i]? = some x → ∃ j : Nat, orig[i]? = some j ∧ parties[j]? = some x) ∧
    (subWorld parties self sub = none ↔ (∃ x ∈ sub, x ∉ parties) ∨ me ∉ sub) := by
  have idx : ∀ (is : List Nat), sub.map (partyRank parties) = is.map some → is.length = sub.length ∧
      ∀ (i : Nat) x, sub[i]? = some x → ∃ j, is[i]? = some j ∧ partyRank parties x = some j := by
    intro is his
    refine ⟨by simpa using (congrArg List.length his).symm, ?_⟩
    intro i x hx
    have := congrArg (·[i]?) his
    simp only [List.getElem?_map, hx, Option.map_some] at this
    cases hi : is[i]? with
    | none => rw [hi] at this; simp at this
    | some j => rw [hi] at this; simp at this; exact ⟨j, rfl, this⟩
  constructor
  · intro nr orig h
    unfold subWorld at h
    split at h
    · simp at h
    · rename_i o n hl
      split at h
      · simp at h
      · rename_i hne
        simp only [Option.some.injEq, Prod.mk.injEq] at h
        obtain ⟨rfl, rfl⟩ := h
        obtain ⟨is, h1, h2, h3⟩ := subWorldLoop_some _ _ _ _ _ hl
        obtain ⟨i1, i2⟩ := idx is h2
        rw [List.nil_append] at h1
        subst h1
        refine ⟨?_, i1, ?_⟩
        · rcases h3 with ⟨h3, _⟩ | ⟨j, h3, h4, _⟩
          · exact absurd h3 hne
          · simp at h3; subst h3
            have hlt : n < sub.length := by rw [← i1]; exact (List.getElem?_eq_some_iff.1 h4).1
            obtain ⟨x, hx⟩ : ∃ x, sub[n]? = some x := ⟨_, List.getElem?_eq_getElem hlt⟩
            obtain ⟨j', hj', hp⟩ := i2 n x hx
            rw [h4] at hj'
            have : self = j' := by simpa using hj'
            subst this
            have := partyRank_some hp
            rw [hme] at this
            rw [hx, this]
        · intro i x hx
          obtain ⟨j, hj, hp⟩ := i2 i x hx
          exact ⟨j, hj, partyRank_some hp⟩
  · unfold subWorld
    cases hl : subWorldLoop parties self sub [] sub.length with
    | none => simp only [true_iff]; left; exact (subWorldLoop_none _ _ _).1 hl
    | some p =>
      obtain ⟨o, n⟩ := p
      have hall : ¬ ∃ x ∈ sub, x ∉ parties := by
        intro hc; rw [← subWorldLoop_none (self := self) sub [] sub.length] at hc; rw [hc] at hl; simp at hl
      obtain ⟨is, h1, h2, h3⟩ := subWorldLoop_some _ _ _ _ _ hl
      obtain ⟨i1, i2⟩ := idx is h2
      have hin : self ∈ is ↔ me ∈ sub := by
        constructor
        · intro hs
          obtain ⟨i, hi⟩ := List.mem_iff_getElem?.1 hs
          have hlt : i < sub.length := by rw [← i1]; exact (List.getElem?_eq_some_iff.1 hi).1
          obtain ⟨x, hx⟩ : ∃ x, sub[i]? = some x := ⟨_, List.getElem?_eq_getElem hlt⟩
          obtain ⟨j', hj', hp⟩ := i2 i x hx
          rw [hi] at hj'
          have : self = j' := by simpa using hj'
          subst this
          have := partyRank_some hp
          rw [hme] at this
          have : me = x := by simpa using this
          subst this
          exact List.mem_of_getElem? hx
        · intro hm
          obtain ⟨i, hi⟩ := List.mem_iff_getElem?.1 hm
          obtain ⟨j, hj, hp⟩ := i2 i me hi
          rw [partyRank_unique hnd hp hme] at hj
          exact List.mem_of_getElem? hj
      simp only
      split
      · rename_i hn
        simp only [true_iff]
        right
        rw [← hin]
        rcases h3 with ⟨_, h4⟩ | ⟨j, h4, h5, _⟩
        · exact h4
        · have := (List.getElem?_eq_some_iff.1 h5).1
          simp at h4; omega
      · rename_i hn
        simp only [reduceCtorEq, false_iff]
        rintro (h | h)
        · exact hall h
        · rcases h3 with ⟨h4, _⟩ | ⟨j, h4, h5, _⟩
          · exact hn h4
          · exact h (hin.1 (List.mem_of_getElem? h5))

/-- Non-vacuity of C65: parties a,b,c; b asks for the sub-world [c, b]. -/
example : subWorld [[97], [98], [99]] 1 [[99], [98]] = some (1, [2, 1]) := by decide

end Yacl.Link
