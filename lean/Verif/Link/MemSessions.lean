import Verif.Link.DescModel
import Mathlib.Tactic.Common

/-! C138: contexts of the in-process link factory, over any history of requests. -/

namespace Yacl.Link.Desc

/-! ### Specification -/

/-- The same communication: what `operator==` of descriptions compares, and what tells the parties that they mean
the same world. -/
def SameWorld (a b : ContextDesc) : Prop := a.id = b.id ∧ a.parties = b.parties

/-- Request number `i` of a history is for party `r` of `d` and is answered with `c`. -/
def Answered (H : Hash) (cs : List (ContextDesc × ℕ)) (i : ℕ) (d : ContextDesc) (r : ℕ) (c : Ctx) : Prop :=
  cs[i]? = some (d, r) ∧ (runMem H Sessions.init cs).1[i]? = some (some c)

/-! ### Invariant -/

def Match (H : Hash) (a b : ContextDesc) : Prop := hashDesc H a = hashDesc H b ∧ SameWorld a b

theorem Match.symm {H : Hash} {a b : ContextDesc} (h : Match H a b) : Match H b a :=
  ⟨h.1.symm, h.2.1.symm, h.2.2.symm⟩

theorem Match.trans {H : Hash} {a b c : ContextDesc} (h : Match H a b) (h' : Match H b c) : Match H a c :=
  ⟨h.1.trans h'.1, h.2.1.trans h'.2.1, h.2.2.trans h'.2.2⟩

theorem Match.refl (H : Hash) (a : ContextDesc) : Match H a a := ⟨rfl, rfl, rfl⟩

theorem match_iff (H : Hash) (a b : ContextDesc) :
    (hashDesc H a == hashDesc H b && same a b) = true ↔ Match H a b := by
  simp [Match, SameWorld, same]

theorem lookup_some {H : Hash} {S : Sessions} {d : ContextDesc} {e : Session} (h : lookup H S d = some e) :
    e ∈ S.entries ∧ Match H e.desc d :=
  ⟨List.mem_of_find?_eq_some h, (match_iff H e.desc d).1 (by
    have := List.find?_some (p := fun e : Session => hashDesc H e.desc == hashDesc H d && same e.desc d) h
    exact this)⟩

theorem lookup_congr {H : Hash} {S : Sessions} {d d' : ContextDesc} (h : Match H d d') :
    lookup H S d = lookup H S d' := by
  have : (fun e : Session => hashDesc H e.desc == hashDesc H d && same e.desc d) =
      fun e => hashDesc H e.desc == hashDesc H d' && same e.desc d' := by
    funext e
    rw [Bool.eq_iff_iff, match_iff, match_iff]
    exact ⟨fun x => x.trans h, fun x => x.trans h.symm⟩
  unfold lookup
  rw [this]

def Inv (S : Sessions) : Prop := (∀ e ∈ S.entries, e.serial < S.next) ∧ (S.entries.map Session.serial).Nodup

theorem inv_create {H : Hash} {S : Sessions} (d : ContextDesc) (r : ℕ) (h : Inv S) : Inv (createMem H S d r).2 := by
  unfold createMem
  split
  · exact h
  · split
    · exact h
    · refine ⟨?_, ?_⟩
      · intro e he
        rcases List.mem_cons.1 he with rfl | he
        · simp
        · exact Nat.lt_succ_of_lt (h.1 e he)
      · simp only [List.map_cons, List.nodup_cons]
        refine ⟨?_, h.2⟩
        intro hm
        obtain ⟨e, he, heq⟩ := List.mem_map.1 hm
        exact absurd (h.1 e he) (by omega)

theorem lookup_create {H : Hash} {S : Sessions} {d : ContextDesc} {e : Session} (h : lookup H S d = some e)
    (d' : ContextDesc) (r : ℕ) : lookup H (createMem H S d' r).2 d = some e := by
  unfold createMem
  split
  · exact h
  · split
    · exact h
    · rename_i hn
      unfold lookup at h hn ⊢
      rw [List.find?_cons_of_neg]
      · exact h
      · intro hm
        have hm := (match_iff H _ _).1 hm
        have := lookup_congr (S := S) hm
        unfold lookup at this
        rw [hn, h] at this
        simp at this

theorem create_ok {H : Hash} {S : Sessions} {d : ContextDesc} {r : ℕ} {c : Ctx}
    (h : (createMem H S d r).1 = some c) :
    r < d.parties.length ∧ c.rank = r ∧ lookup H (createMem H S d r).2 d = some ⟨c.session, c.desc⟩ ∧
      (lookup H S d = some ⟨c.session, c.desc⟩ ∨ (lookup H S d = none ∧ c.desc = d)) := by
  unfold createMem at h ⊢
  split at h
  · simp at h
  · rename_i hr
    rw [if_neg hr]
    split at h
    · rename_i e he
      simp only [Option.some.injEq] at h
      subst h
      exact ⟨by omega, rfl, he, .inl he⟩
    · rename_i he
      simp only [Option.some.injEq] at h
      subst h
      refine ⟨by omega, rfl, ?_, .inr ⟨he, rfl⟩⟩
      simp [lookup, same]

theorem run_lookup {H : Hash} (cs : List (ContextDesc × ℕ)) : ∀ {S : Sessions} {d : ContextDesc} {e : Session},
    lookup H S d = some e → lookup H (runMem H S cs).2 d = some e := by
  induction cs with
  | nil => intro S d e h; exact h
  | cons x xs ih =>
    intro S d e h
    obtain ⟨d', r⟩ := x
    simp only [runMem]
    exact ih (lookup_create h d' r)

theorem run_inv {H : Hash} (cs : List (ContextDesc × ℕ)) : ∀ {S : Sessions}, Inv S → Inv (runMem H S cs).2 := by
  induction cs with
  | nil => intro S h; exact h
  | cons x xs ih =>
    intro S h
    obtain ⟨d', r⟩ := x
    simp only [runMem]
    exact ih (inv_create d' r h)

theorem run_answer {H : Hash} (cs : List (ContextDesc × ℕ)) : ∀ {S : Sessions} {i : ℕ} {d : ContextDesc} {r : ℕ} {c : Ctx},
    cs[i]? = some (d, r) → (runMem H S cs).1[i]? = some (some c) →
    r < d.parties.length ∧ c.rank = r ∧ lookup H (runMem H S cs).2 d = some ⟨c.session, c.desc⟩ := by
  induction cs with
  | nil => intro S i d r c h; simp at h
  | cons x xs ih =>
    intro S i d r c h h'
    obtain ⟨d', r'⟩ := x
    simp only [runMem] at h' ⊢
    cases i with
    | zero =>
      simp only [List.getElem?_cons_zero, Option.some.injEq, Prod.mk.injEq] at h h'
      obtain ⟨rfl, rfl⟩ := h
      obtain ⟨h1, h2, h3, -⟩ := create_ok h'
      exact ⟨h1, h2, run_lookup xs h3⟩
    | succ i =>
      simp only [List.getElem?_cons_succ] at h h'
      exact ih h h'

theorem run_length {H : Hash} (cs : List (ContextDesc × ℕ)) : ∀ S : Sessions, (runMem H S cs).1.length = cs.length := by
  induction cs with
  | nil => intro S; rfl
  | cons x xs ih => intro S; simp [runMem, ih]

theorem run_first {H : Hash} (cs : List (ContextDesc × ℕ)) : ∀ {S : Sessions} {i : ℕ} {d : ContextDesc} {r : ℕ} {c : Ctx},
    cs[i]? = some (d, r) → (runMem H S cs).1[i]? = some (some c) →
    (∃ e, lookup H S d = some e ∧ c.desc = e.desc) ∨
    (lookup H S d = none ∧ ∃ k d' r', k ≤ i ∧ cs[k]? = some (d', r') ∧ r' < d'.parties.length ∧ c.desc = d' ∧ Match H d' d ∧
      ∀ k' < k, ∀ d'' r'', cs[k']? = some (d'', r'') → r'' < d''.parties.length → ¬ Match H d'' d) := by
  induction cs with
  | nil => intro S i d r c h; simp at h
  | cons x xs ih =>
    intro S i d r c h h'
    obtain ⟨d', r'⟩ := x
    simp only [runMem] at h'
    cases i with
    | zero =>
      simp only [List.getElem?_cons_zero, Option.some.injEq, Prod.mk.injEq] at h h'
      obtain ⟨rfl, rfl⟩ := h
      obtain ⟨h1, h2, h3, h4⟩ := create_ok h'
      rcases h4 with h4 | ⟨h4, h5⟩
      · exact .inl ⟨_, h4, rfl⟩
      · exact .inr ⟨h4, 0, d', r', le_refl _, by simp, h1, h5, Match.refl _ _, by simp⟩
    | succ i =>
      simp only [List.getElem?_cons_succ] at h h'
      cases hS : lookup H S d with
      | some e =>
        left
        rcases ih h h' with ⟨e', he', hc⟩ | ⟨hn, -⟩
        · rw [lookup_create hS d' r'] at he'
          simp only [Option.some.injEq] at he'
          subst he'
          exact ⟨e, rfl, hc⟩
        · rw [lookup_create hS d' r'] at hn; simp at hn
      | none =>
        right
        refine ⟨rfl, ?_⟩
        rcases ih h h' with ⟨e', he', hc⟩ | ⟨hn, k, d1, r1, hk, h1, h2, h3, h4, h5⟩
        · -- the session was made by the first call
          unfold createMem at he'
          split at he'
          · rw [hS] at he'; simp at he'
          · rename_i hr
            split at he'
            · rw [hS] at he'; simp at he'
            · unfold lookup at he' hS
              rw [List.find?_cons] at he'
              split at he'
              · rename_i hm
                simp only [Option.some.injEq] at he'
                subst he'
                exact ⟨0, d', r', Nat.zero_le _, by simp, by omega, hc, (match_iff H _ _).1 hm, by simp⟩
              · rw [hS] at he'; simp at he'
        · refine ⟨k + 1, d1, r1, by omega, by simpa using h1, h2, h3, h4, ?_⟩
          intro k' hk' d'' r'' hx hlt hm
          cases k' with
          | zero =>
            simp only [List.getElem?_cons_zero, Option.some.injEq, Prod.mk.injEq] at hx
            obtain ⟨rfl, rfl⟩ := hx
            have : (createMem H S d' r').1.isSome := by
              unfold createMem; rw [if_neg (by omega)]; split <;> simp
            obtain ⟨c', hc'⟩ := Option.isSome_iff_exists.1 this
            obtain ⟨-, -, hl, -⟩ := create_ok hc'
            rw [lookup_congr hm, hn] at hl
            simp at hl
          | succ k' =>
            exact h5 k' (by omega) d'' r'' (by simpa using hx) hlt hm

/-! ### Properties -/

/-- C138 (a): whatever came before, a request is answered exactly when the rank exists, and then with a context of
that rank in a world with the parties and the identifier that were asked for. -/
theorem C138_answer (H : Hash) (cs : List (ContextDesc × ℕ)) (i : ℕ) (d : ContextDesc) (r : ℕ)
    (h : cs[i]? = some (d, r)) :
    ((∃ c, Answered H cs i d r c) ↔ r < d.parties.length) ∧
    ∀ c, Answered H cs i d r c → c.rank = r ∧ SameWorld c.desc d := by
  have hlen : i < (runMem H Sessions.init cs).1.length := by
    rw [run_length]; exact (List.getElem?_eq_some_iff.1 h).1
  refine ⟨⟨fun ⟨c, hc⟩ => (run_answer cs hc.1 hc.2).1, fun hr => ?_⟩, fun c hc => ?_⟩
  · suffices ∀ (cs : List (ContextDesc × ℕ)) (S : Sessions) (i : ℕ), cs[i]? = some (d, r) →
        ∃ c, (runMem H S cs).1[i]? = some (some c) by
      obtain ⟨c, hc⟩ := this cs Sessions.init i h
      exact ⟨c, h, hc⟩
    intro cs
    induction cs with
    | nil => intro S i h; simp at h
    | cons x xs ih =>
      intro S i h
      obtain ⟨d', r'⟩ := x
      simp only [runMem]
      cases i with
      | zero =>
        simp only [List.getElem?_cons_zero, Option.some.injEq, Prod.mk.injEq] at h
        obtain ⟨rfl, rfl⟩ := h
        have : (createMem H S d' r').1.isSome := by
          unfold createMem; rw [if_neg (by omega)]; split <;> simp
        obtain ⟨c', hc'⟩ := Option.isSome_iff_exists.1 this
        exact ⟨c', by simp [hc']⟩
      | succ i => simpa using ih (createMem H S d' r').2 i (by simpa using h)
  · obtain ⟨-, h2, h3⟩ := run_answer cs hc.1 hc.2
    exact ⟨h2, (lookup_some h3).2.2⟩

/-- C138 (b): two contexts are connected exactly when the two requests mean the same world and their hash codes
agree; in particular contexts of different worlds are never connected. -/
theorem C138_connected (H : Hash) (cs : List (ContextDesc × ℕ)) (i j : ℕ) (d d' : ContextDesc) (r r' : ℕ) (c c' : Ctx)
    (h : Answered H cs i d r c) (h' : Answered H cs j d' r' c') :
    c.session = c'.session ↔ SameWorld d d' ∧ hashDesc H d = hashDesc H d' := by
  obtain ⟨-, -, l⟩ := run_answer cs h.1 h.2
  obtain ⟨-, -, l'⟩ := run_answer cs h'.1 h'.2
  constructor
  · intro hs
    obtain ⟨m1, m2⟩ := lookup_some l
    obtain ⟨m1', m2'⟩ := lookup_some l'
    have hinv : Inv (runMem H Sessions.init cs).2 := run_inv cs ⟨by simp [Sessions.init], by simp [Sessions.init]⟩
    have : (⟨c.session, c.desc⟩ : Session) = ⟨c'.session, c'.desc⟩ :=
      List.inj_on_of_nodup_map hinv.2 m1 m1' hs
    have hd : c.desc = c'.desc := congrArg Session.desc this
    have m : Match H d d' := m2.symm.trans (hd ▸ m2')
    exact ⟨m.2, m.1⟩
  · intro ⟨hw, hh⟩
    rw [lookup_congr ⟨hh, hw⟩] at l
    rw [l] at l'
    simpa using congrArg Session.serial (Option.some.inj l')

/-- C138 (c): parties that ask with one and the same description are connected, whatever else is asked for in
between; and who asks twice for the same rank gets the same context again, with whatever is still in it. -/
theorem C138_same_request (H : Hash) (cs : List (ContextDesc × ℕ)) (i j : ℕ) (d : ContextDesc) (r r' : ℕ) (c c' : Ctx)
    (h : Answered H cs i d r c) (h' : Answered H cs j d r' c') :
    c.session = c'.session ∧ (r = r' → c = c') := by
  obtain ⟨-, k, l⟩ := run_answer cs h.1 h.2
  obtain ⟨-, k', l'⟩ := run_answer cs h'.1 h'.2
  rw [l] at l'
  have := Option.some.inj l'
  simp only [Session.mk.injEq] at this
  refine ⟨this.1, fun hr => ?_⟩
  cases c; cases c'
  simp_all

/-- C138 (d): a context carries the settings of the first request of its session. -/
theorem C138_first (H : Hash) (cs : List (ContextDesc × ℕ)) (i : ℕ) (d : ContextDesc) (r : ℕ) (c : Ctx)
    (h : Answered H cs i d r c) :
    ∃ k d' r', k ≤ i ∧ cs[k]? = some (d', r') ∧ r' < d'.parties.length ∧ c.desc = d' ∧ SameWorld d' d ∧
      ∀ k' < k, ∀ d'' r'', cs[k']? = some (d'', r'') → r'' < d''.parties.length →
        ¬ (SameWorld d'' d ∧ hashDesc H d'' = hashDesc H d) := by
  rcases run_first cs h.1 h.2 with ⟨e, he, -⟩ | ⟨-, k, d', r', h1, h2, h3, h4, h5, h6⟩
  · simp [lookup, Sessions.init] at he
  · exact ⟨k, d', r', h1, h2, h3, h4, h5.2, fun k' hk d'' r'' hx hr hm => h6 k' hk d'' r'' hx hr ⟨hm.2, hm.1⟩⟩

theorem hashCombine_inj (s a b : BitVec 64) (h : hashCombine s a = hashCombine s b) : a = b := by
  unfold hashCombine at h
  have h1 : s ^^^ (s ^^^ (a + 0x9e3779b9#64 + (s <<< 6) + (s >>> 2))) =
      s ^^^ (s ^^^ (b + 0x9e3779b9#64 + (s <<< 6) + (s >>> 2))) := by rw [h]
  rw [← BitVec.xor_assoc, ← BitVec.xor_assoc, BitVec.xor_self, BitVec.zero_xor, BitVec.zero_xor] at h1
  have h2 := (BitVec.add_left_inj _).1 h1
  have h3 := (BitVec.add_left_inj _).1 h2
  exact (BitVec.add_left_inj _).1 h3

/-- C138 (e): equal descriptions need not have equal hash codes, as a container keyed by descriptions requires:
descriptions that differ only in the kind of link are equal but hash differently unless the two texts collide. -/
theorem C138_hash_violated (H : Hash) (d : ContextDesc) (t : Str) (ht : H.str t ≠ H.str d.linkType) :
    same { d with linkType := t } d = true ∧ hashDesc H { d with linkType := t } ≠ hashDesc H d := by
  refine ⟨by simp [same], fun h => ht ?_⟩
  simp only [hashDesc, List.foldl_cons, List.foldl_nil] at h
  exact hashCombine_inj _ _ _ h

/-- Alice and Bob in one world. -/
def world : ContextDesc :=
  { ContextDesc.default with parties := [⟨"alice".toList, "a".toList⟩, ⟨"bob".toList, "b".toList⟩] }

/-- Integers hash to themselves as in libstdc++; the text hash does not matter here. -/
def H0 : Hash := ⟨fun _ => 0, BitVec.ofNat 64, BitVec.ofNat 64⟩

theorem H0_timeout : hashDesc H0 world ≠ hashDesc H0 { world with recvTimeoutMs := 60000 } := by
  simp [hashDesc, H0, world, ContextDesc.default, hashCombine]

/-- C138 (f): so the parties of one world are not connected when one of them asks for another receive timeout. -/
theorem C138_timeout_violated :
    ∃ cs d d' c c', Answered H0 cs 0 d 0 c ∧ Answered H0 cs 1 d' 1 c' ∧ SameWorld d d' ∧ c.session ≠ c'.session := by
  obtain ⟨c, hc⟩ := ((C138_answer H0 [(world, 0), ({ world with recvTimeoutMs := 60000 }, 1)] 0 world 0 rfl).1).2
    (by decide)
  obtain ⟨c', hc'⟩ := ((C138_answer H0 [(world, 0), ({ world with recvTimeoutMs := 60000 }, 1)] 1
    { world with recvTimeoutMs := 60000 } 1 rfl).1).2 (by decide)
  exact ⟨_, _, _, c, c', hc, hc', ⟨rfl, rfl⟩,
    fun hs => H0_timeout ((C138_connected H0 _ 0 1 _ _ _ _ _ _ hc hc').1 hs).2⟩

/-- ... in general: two parties of one world that name different kinds of link are not connected, whatever the hash
function does with the other values. -/
theorem C138_link_type_violated (H : Hash) (cs : List (ContextDesc × ℕ)) (i j : ℕ) (d : ContextDesc) (t : Str) (r r' : ℕ)
    (c c' : Ctx) (ht : H.str t ≠ H.str d.linkType)
    (h : Answered H cs i d r c) (h' : Answered H cs j { d with linkType := t } r' c') :
    SameWorld d { d with linkType := t } ∧ c.session ≠ c'.session := by
  refine ⟨⟨rfl, rfl⟩, fun hs => ?_⟩
  have := ((C138_connected H cs i j _ _ _ _ _ _ h h').1 hs).2
  exact (C138_hash_violated H d t ht).2 this.symm

theorem create_new (H : Hash) (S : Sessions) (d : ContextDesc) (r : ℕ) (hr : r < d.parties.length)
    (hl : ∀ e ∈ S.entries, ¬ SameWorld e.desc d) :
    createMem H S d r = (some ⟨S.next, r, d⟩, ⟨⟨S.next, d⟩ :: S.entries, S.next + 1⟩) := by
  have : lookup H S d = none := by
    cases h : lookup H S d with
    | none => rfl
    | some e => exact absurd (lookup_some h).2.2 (hl e (lookup_some h).1)
  unfold createMem
  rw [if_neg (by omega), this]

theorem lookup_cons (H : Hash) (e : Session) (es : List Session) (n : ℕ) (d : ContextDesc) (h : Match H e.desc d) :
    lookup H ⟨e :: es, n⟩ d = some e := by
  unfold lookup
  exact List.find?_cons_of_pos ((match_iff H _ _).2 h)

theorem lookup_skip (H : Hash) (e : Session) (es : List Session) (n : ℕ) (d : ContextDesc) (h : ¬ SameWorld e.desc d) :
    lookup H ⟨e :: es, n⟩ d = lookup H ⟨es, n⟩ d := by
  unfold lookup
  exact List.find?_cons_of_neg (fun hm => h ((match_iff H _ _).1 hm).2)

theorem create_old (H : Hash) (S : Sessions) (d : ContextDesc) (r : ℕ) (e : Session) (hr : r < d.parties.length)
    (hl : lookup H S d = some e) : createMem H S d r = (some ⟨e.serial, r, e.desc⟩, S) := by
  unfold createMem
  rw [if_neg (by omega), hl]

theorem run_cons {H : Hash} {S S' : Sessions} {d : ContextDesc} {r : ℕ} {c : Option Ctx} {cs : List (ContextDesc × ℕ)}
    {l : List (Option Ctx)} (h : createMem H S d r = (c, S')) (hl : (runMem H S' cs).1 = l) :
    (runMem H S ((d, r) :: cs)).1 = c :: l := by
  simp only [runMem, h, hl]

theorem match_seq (H : Hash) (d : ContextDesc) (b : Bool) : Match H d { d with disableMsgSeqId := b } :=
  ⟨rfl, rfl, rfl⟩

/-- C138 (g): other settings are shared silently: the second party gets a context that follows the first party's
description, not the one it passed. -/
theorem C138_settings_violated (H : Hash) :
    ∃ cs d c, Answered H cs 1 d 1 c ∧ d.disableMsgSeqId = true ∧ c.desc.disableMsgSeqId = false := by
  refine ⟨[(world, 0), ({ world with disableMsgSeqId := true }, 1)], { world with disableMsgSeqId := true },
    ⟨0, 1, world⟩, ⟨rfl, ?_⟩, rfl, rfl⟩
  have e1 : createMem H Sessions.init world 0 = (some ⟨0, 0, world⟩, ⟨[⟨0, world⟩], 1⟩) :=
    create_new H Sessions.init world 0 (by decide) (by simp [Sessions.init])
  have e2 : createMem H ⟨[⟨0, world⟩], 1⟩ { world with disableMsgSeqId := true } 1 =
      (some ⟨0, 1, world⟩, ⟨[⟨0, world⟩], 1⟩) :=
    create_old H ⟨[⟨0, world⟩], 1⟩ { world with disableMsgSeqId := true } 1 ⟨0, world⟩ (by decide)
      (lookup_cons H ⟨0, world⟩ [] 1 _ (match_seq H world true))
  have := run_cons e1 (run_cons (cs := []) e2 rfl)
  rw [this]
  rfl

/-- Alice's other world. -/
def other : ContextDesc := { world with id := "other".toList }

/-- A history with two worlds: Alice and Bob are connected, and not to Alice's other world, whatever the hash. -/
example (H : Hash) : ∃ a o b : Ctx,
    (runMem H Sessions.init [(world, 0), (other, 0), (world, 2), (world, 1)]).1 =
      [some a, some o, none, some b] ∧ a.session = b.session ∧ a.session ≠ o.session ∧ b.rank = 1 := by
  have hne : ¬ SameWorld world other := fun h => absurd h.1 (by decide)
  have hne' : ¬ SameWorld other world := fun h => absurd h.1 (by decide)
  have e1 : createMem H Sessions.init world 0 = (some ⟨0, 0, world⟩, ⟨[⟨0, world⟩], 1⟩) :=
    create_new H Sessions.init world 0 (by decide) (by simp [Sessions.init])
  have e2 : createMem H ⟨[⟨0, world⟩], 1⟩ other 0 =
      (some ⟨1, 0, other⟩, ⟨[⟨1, other⟩, ⟨0, world⟩], 2⟩) :=
    create_new H ⟨[⟨0, world⟩], 1⟩ other 0 (by decide) (by simpa using hne)
  have e3 : ∀ S, createMem H S world 2 = (none, S) := by
    intro S; unfold createMem; rw [if_pos (by decide)]
  have e4 : createMem H ⟨[⟨1, other⟩, ⟨0, world⟩], 2⟩ world 1 =
      (some ⟨0, 1, world⟩, ⟨[⟨1, other⟩, ⟨0, world⟩], 2⟩) :=
    create_old H ⟨[⟨1, other⟩, ⟨0, world⟩], 2⟩ world 1 ⟨0, world⟩ (by decide)
    ((lookup_skip H ⟨1, other⟩ [⟨0, world⟩] 2 world hne').trans (lookup_cons H ⟨0, world⟩ [] 2 world (Match.refl _ _)))
  exact ⟨⟨0, 0, world⟩, ⟨1, 0, other⟩, ⟨0, 1, world⟩, run_cons e1 (run_cons e2 (run_cons (e3 _) (run_cons (cs := []) e4 rfl))), rfl, by decide, rfl⟩

end Yacl.Link.Desc
