import Verif.Zkp.Bp.RangeModel
import Mathlib.Data.Nat.Digits.Defs
import Mathlib.Data.List.Induction
import Mathlib.Tactic.Common
import Mathlib.Tactic.Ring

/-! C139: the Bulletproofs transcript binds what was put into it: simple_transcript.cc.  The functions are those of
Verif.Zkp.Bp.Model. -/

namespace Yacl.Bp.Transcript

variable {F M : Type} [Field F] [DecidableEq F] [AddCommGroup M] [Module F M] [DecidableEq M]

/-! ### Calls on a transcript -/

/-- The calls of simple_transcript.h that change the state. -/
inductive Call (F M : Type)
  | message (label : String) (msg : List Nat)
  | u64 (label : String) (v : Nat)
  | point (label : String) (p : M)
  | scalar (label : String) (x : F)
  | challenge (label : String)

/-- The state after the call. -/
def Call.run (E : Env F M) : Call F M → List Nat → List Nat
  | .message l m, st => appendMessage E l m st
  | .u64 l v, st => appendU64 E l v st
  | .point l p, st => appendPoint E l p st
  | .scalar l x, st => appendScalar E l x st
  | .challenge l, st => (challengeScalar E l st).2

/-- simple_transcript.cc L22-31: a transcript without a label starts with the hash of nothing; one with a label
appends it as a message. -/
def start (E : Env F M) : List Nat := E.sha []

/-- A history of calls, the first call first. -/
def run (E : Env F M) (cs : List (Call F M)) : List Nat := cs.foldl (fun st c => c.run E st) (start E)

/-! ### Specification -/

/-- What a call records: whether it asks for a challenge, its label, and its bytes. -/
inductive Item
  | said (label : String) (bytes : List Nat)
  | asked (label : String)
deriving DecidableEq, Repr

/-- The eight bytes of a number, least significant first. -/
def bytes64 (v : Nat) : List Nat :=
  [v % 256, v / 256 % 256, v / 256 ^ 2 % 256, v / 256 ^ 3 % 256, v / 256 ^ 4 % 256, v / 256 ^ 5 % 256,
    v / 256 ^ 6 % 256, v / 256 ^ 7 % 256]

def Call.item (E : Env F M) : Call F M → Item
  | .message l m => .said l m
  | .u64 l v => .said l (bytes64 v)
  | .point l p => .said l (E.serPoint p)
  | .scalar l x => .said l (E.serScalar x)
  | .challenge l => .asked l

def Call.label : Call F M → String
  | .message l _ | .u64 l _ | .point l _ | .scalar l _ | .challenge l => l

/-- The inputs of SHA-256 in a history. -/
def hashed (E : Env F M) : List (Call F M) → List Nat → List (List Nat)
  | [], _ => []
  | .message l m :: cs, st =>
    (st ++ ((lbl l).length % 256 :: lbl l ++ m)) :: hashed E cs ((Call.message l m).run E st)
  | .u64 l v :: cs, st =>
    (st ++ ((lbl l).length % 256 :: lbl l ++ bytes64 v)) :: hashed E cs ((Call.u64 l v).run E st)
  | .point l p :: cs, st =>
    (st ++ ((lbl l).length % 256 :: lbl l ++ E.serPoint p)) :: hashed E cs ((Call.point l p).run E st)
  | .scalar l x :: cs, st =>
    (st ++ ((lbl l).length % 256 :: lbl l ++ E.serScalar x)) :: hashed E cs ((Call.scalar l x).run E st)
  | .challenge l :: cs, st =>
    (st ++ (lbl "challenge" ++ (lbl l).length % 256 :: lbl l ++ [64])) :: hashed E cs ((Call.challenge l).run E st)

/-- The two histories make the program hash two different inputs to one value. -/
def Collision (E : Env F M) (cs cs' : List (Call F M)) : Prop :=
  ∃ a ∈ [] :: hashed E cs (start E), ∃ b ∈ [] :: hashed E cs' (start E), a ≠ b ∧ E.sha a = E.sha b

/-! ### Proofs -/

theorem u64_bytes (v : Nat) : ((List.range 8).map fun i => v >>> (8 * i) &&& 0xFF) = bytes64 v := by
  have h : ∀ x : Nat, x &&& 255 = x % 256 := fun x => Nat.and_two_pow_sub_one_eq_mod x 8
  simp only [List.range_eq_range', List.range', List.map_cons, List.map_nil, bytes64, h, Nat.shiftRight_eq_div_pow]
  norm_num

/-- What a call hands to `UpdateState`. -/
def Call.data (E : Env F M) : Call F M → List Nat
  | .message l m => (lbl l).length % 256 :: lbl l ++ m
  | .u64 l v => (lbl l).length % 256 :: lbl l ++ bytes64 v
  | .point l p => (lbl l).length % 256 :: lbl l ++ E.serPoint p
  | .scalar l x => (lbl l).length % 256 :: lbl l ++ E.serScalar x
  | .challenge l => lbl "challenge" ++ (lbl l).length % 256 :: lbl l ++ [64]

theorem run_data (E : Env F M) (c : Call F M) (st : List Nat) : c.run E st = E.sha (st ++ c.data E) := by
  cases c with
  | u64 l v => simp only [Call.run, appendU64, u64_bytes, appendMessage, updateState, Call.data]
  | _ => rfl

theorem hashed_cons (E : Env F M) (c : Call F M) (cs : List (Call F M)) (st : List Nat) :
    hashed E (c :: cs) st = (st ++ c.data E) :: hashed E cs (c.run E st) := by
  cases c <;> rfl

theorem hashed_snoc (E : Env F M) (cs : List (Call F M)) (c : Call F M) : ∀ st,
    hashed E (cs ++ [c]) st = hashed E cs st ++ [cs.foldl (fun st c => c.run E st) st ++ c.data E] := by
  induction cs with
  | nil => intro st; simp [hashed_cons, hashed]
  | cons x xs ih => intro st; simp [hashed_cons, ih]

theorem run_snoc (E : Env F M) (cs : List (Call F M)) (c : Call F M) :
    run E (cs ++ [c]) = E.sha (run E cs ++ c.data E) := by
  simp [run, run_data]

theorem run_length (E : Env F M) (hE : ∀ x, (E.sha x).length = 32) (cs : List (Call F M)) : (run E cs).length = 32 := by
  induction cs using List.reverseRecOn with
  | nil => exact hE _
  | append_singleton cs c _ => rw [run_snoc]; exact hE _

theorem data_ne (E : Env F M) (c : Call F M) : c.data E ≠ [] := by
  cases c <;> simp [Call.data, lbl]

theorem run_eq (E : Env F M) (hE : ∀ x, (E.sha x).length = 32) (cs : List (Call F M)) : ∀ cs' : List (Call F M),
    run E cs = run E cs' → cs.map (Call.data E) = cs'.map (Call.data E) ∨ Collision E cs cs' := by
  induction cs using List.reverseRecOn with
  | nil =>
    intro cs' h
    rcases List.eq_nil_or_concat' cs' with rfl | ⟨xs, x, rfl⟩
    · exact .inl rfl
    · right
      rw [run_snoc] at h
      refine ⟨[], by simp, run E xs ++ x.data E, ?_, ?_, h⟩
      · rw [hashed_snoc]; simp [run]
      · have := run_length E hE xs
        intro h0
        have := congrArg List.length h0
        simp only [List.length_nil, List.length_append] at this
        omega
  | append_singleton cs c ih =>
    intro cs' h
    rcases List.eq_nil_or_concat' cs' with rfl | ⟨xs, x, rfl⟩
    · right
      rw [run_snoc] at h
      refine ⟨run E cs ++ c.data E, ?_, [], by simp, ?_, h⟩
      · rw [hashed_snoc]; simp [run]
      · have := run_length E hE cs
        intro h0
        have := congrArg List.length h0
        simp only [List.length_nil, List.length_append] at this
        omega
    · rw [run_snoc, run_snoc] at h
      by_cases he : run E cs ++ c.data E = run E xs ++ x.data E
      · obtain ⟨h1, h2⟩ := List.append_inj he (by rw [run_length E hE, run_length E hE])
        rcases ih xs h1 with h3 | ⟨a, ha, b, hb, hab⟩
        · left; simp [h3, h2]
        · right
          refine ⟨a, ?_, b, ?_, hab⟩
          · rw [hashed_snoc]; simp only [List.mem_cons, List.mem_append] at ha ⊢; tauto
          · rw [hashed_snoc]; simp only [List.mem_cons, List.mem_append] at hb ⊢; tauto
      · right
        refine ⟨_, ?_, _, ?_, he, h⟩
        · rw [hashed_snoc]; simp [run]
        · rw [hashed_snoc]; simp [run]

theorem lbl_inj {a b : String} (h : lbl a = lbl b) : a = b := by
  unfold lbl at h
  have := List.map_injective_iff.2 (fun x y hxy => Char.ext (UInt32.toNat_inj.1 hxy)) h
  exact String.toList_inj.1 this

theorem lbl_length (l : String) : (lbl l).length = l.length := by
  unfold lbl; rw [List.length_map]; exact String.length_toList

theorem parse {l l' : String} {m m' : List Nat} (hl : l.length < 99) (hl' : l'.length < 99)
    (h : (lbl l).length % 256 :: lbl l ++ m = (lbl l').length % 256 :: lbl l' ++ m') : l = l' ∧ m = m' := by
  rw [lbl_length, lbl_length, Nat.mod_eq_of_lt (by omega), Nat.mod_eq_of_lt (by omega)] at h
  simp only [List.cons_append, List.cons.injEq] at h
  obtain ⟨h1, h2⟩ := List.append_inj h.2 (by rw [lbl_length, lbl_length, h.1])
  exact ⟨lbl_inj h1, h2⟩

theorem parse_chal {l l' : String} {m : List Nat} (hl : l.length < 99)
    (h : (lbl l).length % 256 :: lbl l ++ m = lbl "challenge" ++ (lbl l').length % 256 :: lbl l' ++ [64]) : False := by
  rw [lbl_length, Nat.mod_eq_of_lt (by omega)] at h
  have : lbl "challenge" = 99 :: lbl "hallenge" := by decide
  rw [this] at h
  simp only [List.cons_append, List.cons.injEq] at h
  omega

theorem parse_chal2 {l l' : String} (hl : l.length < 99) (hl' : l'.length < 99)
    (h : lbl "challenge" ++ (lbl l).length % 256 :: lbl l ++ [64] =
      lbl "challenge" ++ (lbl l').length % 256 :: lbl l' ++ [64]) : l = l' := by
  rw [List.append_assoc, List.append_assoc] at h
  have := List.append_cancel_left h
  exact (parse hl hl' this).1

theorem data_item (E : Env F M) (c c' : Call F M) (h : c.label.length < 99) (h' : c'.label.length < 99)
    (hd : c.data E = c'.data E) : c.item E = c'.item E := by
  cases c <;> cases c' <;> simp only [Call.data, Call.item, Call.label] at * <;>
    first
    | (obtain ⟨rfl, h2⟩ := parse h h' hd; rw [h2])
    | exact (parse_chal h hd).elim
    | exact (parse_chal h' hd.symm).elim
    | (rw [parse_chal2 h h' hd])

/-! ### Properties -/

/-- C139 (a): two histories of calls that lead to the same state (and so to the same challenges) recorded the same
items, in the same order, with the same labels and the same requests for challenges, unless the run produced two
different inputs with the same SHA-256 hash.  Labels must be shorter than 99 bytes. -/
theorem C139_binding_partial (E : Env F M) (hE : ∀ x, (E.sha x).length = 32) (cs cs' : List (Call F M))
    (hl : ∀ c ∈ cs, c.label.length < 99) (hl' : ∀ c ∈ cs', c.label.length < 99)
    (h : run E cs = run E cs') : cs.map (Call.item E) = cs'.map (Call.item E) ∨ Collision E cs cs' := by
  rcases run_eq E hE cs cs' h with h | h
  · left
    induction cs generalizing cs' with
    | nil => cases cs' with
      | nil => rfl
      | cons x xs => simp at h
    | cons x xs ih => cases cs' with
      | nil => simp at h
      | cons y ys =>
        simp only [List.map_cons, List.cons.injEq] at h ⊢
        refine ⟨data_item E x y (hl x (by simp)) (hl' y (by simp)) h.1, ?_⟩
        have key : ∀ (as bs : List (Call F M)), (∀ c ∈ as, c.label.length < 99) → (∀ c ∈ bs, c.label.length < 99) →
            as.map (Call.data E) = bs.map (Call.data E) → as.map (Call.item E) = bs.map (Call.item E) := by
          intro as
          induction as with
          | nil => intro bs _ _ hh; cases bs with
            | nil => rfl
            | cons b bs => simp at hh
          | cons a as iha =>
            intro bs ha hb hh
            cases bs with
            | nil => simp at hh
            | cons b bs =>
              simp only [List.map_cons, List.cons.injEq] at hh ⊢
              exact ⟨data_item E a b (ha a (by simp)) (hb b (by simp)) hh.1,
                iha bs (fun c hc => ha c (List.mem_cons_of_mem _ hc)) (fun c hc => hb c (List.mem_cons_of_mem _ hc)) hh.2⟩
        exact key xs ys (fun c hc => hl c (List.mem_cons_of_mem _ hc)) (fun c hc => hl' c (List.mem_cons_of_mem _ hc)) h.2
  · exact .inr h

/-- C139 (b): the eight bytes of a number determine it. -/
theorem C139_number (v : Nat) (hv : v < 2 ^ 64) : Nat.ofDigits 256 (bytes64 v) = v ∧ (bytes64 v).length = 8 ∧
    ∀ b ∈ bytes64 v, b < 256 := by
  refine ⟨?_, rfl, ?_⟩
  · simp only [bytes64, Nat.ofDigits_cons, Nat.ofDigits_nil, Nat.cast_id]
    norm_num
    omega
  · intro b hb
    simp only [bytes64, List.mem_cons, List.not_mem_nil, or_false] at hb
    rcases hb with h | h | h | h | h | h | h | h <;> (subst h; exact Nat.mod_lt _ (by norm_num))

/-- ... so the sizes in the domain separators of the proofs are bound: a range proof's transcript for `n` bits and
`m` values is no other range proof's and no inner product proof's, whatever preceded, unless SHA-256 collides. -/
theorem C139_domains (E : Env F M) (hE : ∀ x, (E.sha x).length = 32) (cs cs' : List (Call F M)) (n m n' m' : Nat)
    (hn : n < 2 ^ 64) (hm : m < 2 ^ 64) (hn' : n' < 2 ^ 64) (hm' : m' < 2 ^ 64)
    (hl : ∀ c ∈ cs, c.label.length < 99) (hl' : ∀ c ∈ cs', c.label.length < 99)
    (h : rangeDomainSep E n m (run E cs) = rangeDomainSep E n' m' (run E cs')) :
    (n = n' ∧ m = m' ∧ cs.map (Call.item E) = cs'.map (Call.item E)) ∨
    Collision E (cs ++ [.message "dom-sep" (lbl "rangeproof v1"), .u64 "n" n, .u64 "m" m])
      (cs' ++ [.message "dom-sep" (lbl "rangeproof v1"), .u64 "n" n', .u64 "m" m']) := by
  have e : ∀ (cs : List (Call F M)) n m, rangeDomainSep E n m (run E cs) =
      run E (cs ++ [.message "dom-sep" (lbl "rangeproof v1"), .u64 "n" n, .u64 "m" m]) := by
    intro cs n m; simp [run, Call.run, rangeDomainSep]
  rw [e, e] at h
  have hs : ∀ (cs : List (Call F M)) n m, (∀ c ∈ cs, c.label.length < 99) →
      ∀ c ∈ cs ++ [Call.message "dom-sep" (lbl "rangeproof v1"), .u64 "n" n, .u64 "m" m], c.label.length < 99 := by
    intro cs n m hl c hc
    rcases List.mem_append.1 hc with hc | hc
    · exact hl c hc
    · simp only [List.mem_cons, List.not_mem_nil, or_false] at hc
      rcases hc with rfl | rfl | rfl <;> simp only [Call.label] <;> decide
  rcases C139_binding_partial E hE _ _ (hs cs n m hl) (hs cs' n' m' hl') h with h | h
  · left
    simp only [List.map_append, List.map_cons, List.map_nil, Call.item] at h
    obtain ⟨h1, h2⟩ := List.append_inj' h rfl
    simp only [List.cons.injEq, Item.said.injEq, true_and, and_true] at h2
    have a := congrArg (Nat.ofDigits 256) h2.1
    have b := congrArg (Nat.ofDigits 256) h2.2
    rw [(C139_number n hn).1, (C139_number n' hn').1] at a
    rw [(C139_number m hm).1, (C139_number m' hm').1] at b
    exact ⟨a, b, h1⟩
  · exact .inr h

/-- C139 (c): with labels of 256 bytes and more the binding is lost: the length of the label is written in one byte,
and a message under such a label leaves the same state as another message under the empty label. -/
theorem C139_long_label_violated (E : Env F M) (l : String) (hl : l.length = 256) (m st : List Nat) :
    appendMessage E l m st = appendMessage E "" (lbl l ++ m) st := by
  unfold appendMessage
  rw [lbl_length, hl]
  rfl

/-- ... and a message under a label of 99 bytes can leave the state of a request for a challenge. -/
theorem C139_challenge_confusion_violated (E : Env F M) :
    ∃ (l l' : String) (m : List Nat), l.length = 99 ∧ ∀ st, appendMessage E l m st = (challengeScalar E l' st).2 := by
  refine ⟨"hallenge" ++ String.ofList [Char.ofNat 90] ++ String.ofList (List.replicate 90 'x'),
    String.ofList (List.replicate 90 'x'), [64], ?_, ?_⟩
  · decide
  · intro st
    simp only [appendMessage, challengeScalar]
    congr 1

/-- Two different histories of the kind (a) speaks about. -/
example (E : Env F M) : (∀ c ∈ ([.message "label" [1, 2], .challenge "y"] : List (Call F M)), c.label.length < 99) ∧
    ([.message "label" [1, 2], .challenge "y"] : List (Call F M)).map (Call.item E) ≠
      ([.message "label" [1], .challenge "y"] : List (Call F M)).map (Call.item E) := by
  constructor
  · intro c hc
    simp only [List.mem_cons, List.not_mem_nil, or_false] at hc
    rcases hc with rfl | rfl <;> simp only [Call.label] <;> decide
  · simp [Call.item]

end Yacl.Bp.Transcript
