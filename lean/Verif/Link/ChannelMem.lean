import Mathlib.Tactic.SplitIfs
import Mathlib.Tactic.Set
import Mathlib.Order.Basic

/-! In-process link: yacl/link/transport/channel_mem.{h,cc}, yacl/link/factory_mem.cc.  Property C62.

A history is a sequence of atomic events, in any interleaving: `OnMessage` and the body of the wait predicate of
`Recv` both run under `msg_mutex_`, so every schedule of the threads is such a sequence.  A `Recv` event is the
instant at which the call returns or times out; blocking before that has no effect on the state.  Keys and values
are of arbitrary types. -/
namespace Yacl.ChannelMem

/-! ### Model -/

/-- channel_mem.h L38-95: the state of one channel.  `msgs` is the `unordered_map` (at most one entry per key);
`alive` is false once the object is destroyed. -/
structure Chan (K V : Type) where
  msgs : List (K × V)
  finished : Bool
  alive : Bool

/-- factory_mem.cc L40-70 `CreateSession`: `w i j` is the channel of rank `i` for the peer `j`; its peer channel
is `w j i`. -/
abbrev World (K V : Type) := Nat → Nat → Chan K V

/-- factory_mem.cc L44-68: fresh channels; `SetPeer` (channel_mem.cc L25-28) clears `finished_`. -/
def init (K V : Type) : World K V := fun _ _ => ⟨[], false, true⟩

/-- The calls a rank can make. -/
inductive Op (K V : Type) where
  /-- `Send`, `SendAsync` and `SendAsyncThrottled` of rank `i` to rank `j`: channel_mem.h L55-68 -/
  | send (i j : Nat) (k : K) (v : V)
  /-- `Recv` of rank `i` from rank `j` -/
  | recv (i j : Nat) (k : K)
  /-- the first half of `WaitLinkTaskFinish`; the second half is a `recv` of the finish key -/
  | finish (i j : Nat)
  /-- rank `i` destroys its channel to `j` -/
  | release (i j : Nat)

/-- What a call returns. -/
inductive Out (V : Type) where
  | ok
  | got (v : V)
  | timeout
  | ioError
  | skipped

variable {K V : Type} [DecidableEq K]

/-- `unordered_map::find`. -/
def find (l : List (K × V)) (k : K) : Option V := (l.find? fun e => e.1 = k).map Prod.snd

/-- channel_mem.cc L60-67 `OnMessage`: `emplace` keeps the old entry when the key is present. -/
def onMessage (c : Chan K V) (k : K) (v : V) : Chan K V :=
  match find c.msgs k with
  | some _ => c
  | none => { c with msgs := (k, v) :: c.msgs }

/-- Replace one channel. -/
def World.set (w : World K V) (i j : Nat) (c : Chan K V) : World K V :=
  fun a b => if a = i ∧ b = j then c else w a b

/-- channel_mem.cc L30-36 `SendImpl`: rank `i` puts the message into the channel that rank `j` holds for `i`. -/
def sendImpl (w : World K V) (i j : Nat) (k : K) (v : V) : World K V × Out V :=
  if (w j i).alive then (w.set j i (onMessage (w j i) k v), .ok) else (w, .ioError)

/-- One event.  `fin` is `kFinKey`, `nil` the empty value.
`recv`: channel_mem.cc L38-58.  `finish`: channel_mem.cc L69-78 up to the `SendImpl`. -/
def step (fin : K) (nil : V) (w : World K V) : Op K V → World K V × Out V
  | .send i j k v => sendImpl w i j k v
  | .recv i j k =>
    match find (w i j).msgs k with
    | some v => (w.set i j { w i j with msgs := (w i j).msgs.filter fun e => e.1 ≠ k }, .got v)
    | none => (w, .timeout)
  | .finish i j =>
    if (w i j).finished then (w, .skipped)
    else sendImpl (w.set i j { w i j with finished := true }) i j fin nil
  | .release i j => (w.set i j { w i j with alive := false }, .ok)

/-- A history with the outcome of every call, oldest first. -/
def run (fin : K) (nil : V) : World K V → List (Op K V) → World K V × List (Op K V × Out V)
  | w, [] => (w, [])
  | w, op :: ops =>
    let s := step fin nil w op
    let r := run fin nil s.1 ops
    (r.1, (op, s.2) :: r.2)

/-! ### Specification -/

/-- The value that an event delivers from rank `j` to rank `i` under the key `k`, if it does. -/
def sentBy (fin : K) (nil : V) (i j : Nat) (k : K) : Op K V × Out V → Option V
  | (.send a b k' v, .ok) => if a = j ∧ b = i ∧ k' = k then some v else none
  | (.finish a b, .ok) => if a = j ∧ b = i ∧ fin = k then some nil else none
  | _ => none

/-- The value that an event hands to rank `i` from rank `j` under the key `k`, if it does. -/
def takenBy (i j : Nat) (k : K) : Op K V × Out V → Option V
  | (.recv a b k', .got v) => if a = i ∧ b = j ∧ k' = k then some v else none
  | _ => none

/-- All values sent from `j` to `i` under `k`, in order. -/
def sent (fin : K) (nil : V) (i j : Nat) (k : K) (tr : List (Op K V × Out V)) : List V :=
  tr.filterMap (sentBy fin nil i j k)

/-- All values received by `i` from `j` under `k`, in order. -/
def received (i j : Nat) (k : K) (tr : List (Op K V × Out V)) : List V := tr.filterMap (takenBy i j k)

/-- No message is sent under this key while an earlier one is still unread. -/
def NoOverlap (fin : K) (nil : V) (i j : Nat) (k : K) (tr : List (Op K V × Out V)) : Prop :=
  ∀ pre e post, tr = pre ++ e :: post → (sentBy fin nil i j k e).isSome →
    (sent fin nil i j k pre).length = (received i j k pre).length

/-! ### Lemmas -/

theorem find_cons (k k' : K) (v : V) (l : List (K × V)) :
    find ((k, v) :: l) k' = if k = k' then some v else find l k' := by
  unfold find
  rw [List.find?_cons]
  by_cases h : k = k' <;> simp [h]

theorem find_filter (l : List (K × V)) (k k' : K) :
    find (l.filter fun e => e.1 ≠ k) k' = if k' = k then none else find l k' := by
  induction l with
  | nil => simp [find]
  | cons e l ih =>
    obtain ⟨a, v⟩ := e
    rw [List.filter_cons, find_cons]
    by_cases h : a = k
    · subst h
      simp only [ne_eq, not_true_eq_false, decide_false, Bool.false_eq_true, if_false]
      rw [ih]
      by_cases h2 : k' = a
      · simp [h2]
      · rw [if_neg h2, if_neg h2, if_neg (Ne.symm h2)]
    · rw [if_pos (by simpa using h), find_cons, ih]
      by_cases h2 : k' = k
      · subst h2; simp [h]
      · simp [h2]

/-- The message waiting at rank `i` from rank `j` under the key `k`. -/
def slot (w : World K V) (i j : Nat) (k : K) : Option V := find (w i j).msgs k

theorem slot_onMessage (c : Chan K V) (k k' : K) (v : V) :
    find (onMessage c k v).msgs k' = if k = k' then some ((find c.msgs k').getD v) else find c.msgs k' := by
  unfold onMessage
  cases h : find c.msgs k with
  | some x =>
    simp only
    split_ifs with h2
    · subst h2; simp [h]
    · rfl
  | none =>
    simp only
    rw [find_cons]
    split_ifs with h2
    · subst h2; simp [h]
    · rfl

theorem slot_send (w : World K V) (a b : Nat) (k' : K) (v : V) (i j : Nat) (k : K) :
    slot (sendImpl w a b k' v).1 i j k =
      if a = j ∧ b = i ∧ k' = k ∧ (w b a).alive then some ((slot w i j k).getD v) else slot w i j k := by
  unfold sendImpl slot World.set
  by_cases hal : (w b a).alive
  · rw [if_pos hal]
    simp only
    by_cases h : i = b ∧ j = a
    · obtain ⟨rfl, rfl⟩ := h
      rw [if_pos ⟨rfl, rfl⟩, slot_onMessage]
      simp [hal]
    · rw [if_neg h, if_neg (by rintro ⟨h1, h2, _⟩; exact h ⟨h2.symm, h1.symm⟩)]
  · rw [if_neg hal, if_neg (by rintro ⟨_, _, _, h⟩; exact hal h)]

/-- One event changes the slot as the specification says. -/
theorem slot_step (fin : K) (nil : V) (w : World K V) (op : Op K V) (i j : Nat) (k : K) :
    slot (step fin nil w op).1 i j k =
      match sentBy fin nil i j k (op, (step fin nil w op).2), takenBy i j k (op, (step fin nil w op).2) with
      | some v, _ => some ((slot w i j k).getD v)
      | none, some _ => none
      | none, none => slot w i j k := by
  cases op with
  | send a b k' v =>
    simp only [step, slot_send]
    unfold sendImpl
    by_cases hal : (w b a).alive
    · simp only [hal, if_true, sentBy, takenBy, and_true]
      by_cases h : a = j ∧ b = i ∧ k' = k
      · simp [h]
      · simp [h]
    · simp [hal, sentBy, takenBy]
  | recv a b k' =>
    simp only [step]
    cases h : find (w a b).msgs k' with
    | none => simp [sentBy, takenBy]
    | some v =>
      simp only [sentBy, takenBy, slot, World.set]
      by_cases h2 : i = a ∧ j = b
      · obtain ⟨rfl, rfl⟩ := h2
        rw [if_pos ⟨rfl, rfl⟩, find_filter]
        by_cases h3 : k' = k
        · subst h3; simp
        · rw [if_neg (Ne.symm h3)]; simp [h3]
      · rw [if_neg h2, if_neg (by rintro ⟨h1, h3, _⟩; exact h2 ⟨h1.symm, h3.symm⟩)]
  | finish a b =>
    simp only [step]
    by_cases hf : (w a b).finished
    · simp [hf, sentBy, takenBy]
    · rw [if_neg hf, slot_send]
      have hs : ∀ x y, slot (w.set a b { w a b with finished := true }) x y k = slot w x y k := by
        intro x y
        unfold slot World.set
        by_cases h : x = a ∧ y = b
        · rw [if_pos h]; simp [h.1, h.2]
        · rw [if_neg h]
      rw [hs]
      unfold sendImpl
      by_cases hal : ((w.set a b { w a b with finished := true }) b a).alive
      · simp only [hal, if_true, sentBy, takenBy, and_true]
        by_cases h : a = j ∧ b = i ∧ fin = k
        · simp [h]
        · simp [h]
      · simp [hal, sentBy, takenBy]
  | release a b =>
    simp only [step, sentBy, takenBy]
    unfold slot World.set
    by_cases h : i = a ∧ j = b
    · rw [if_pos h]; simp [h.1, h.2]
    · rw [if_neg h]

/-- What a receive event took is what was in the slot. -/
theorem taken_slot (fin : K) (nil : V) (w : World K V) (op : Op K V) (i j : Nat) (k : K) (v : V)
    (h : takenBy i j k (op, (step fin nil w op).2) = some v) :
    slot w i j k = some v ∧ sentBy fin nil i j k (op, (step fin nil w op).2) = none := by
  cases op with
  | send a b k' x => simp only [takenBy] at h; cases h
  | finish a b => simp only [takenBy] at h; cases h
  | release a b => simp only [takenBy] at h; cases h
  | recv a b k' =>
    simp only [step] at h ⊢
    cases h2 : find (w a b).msgs k' with
    | none => rw [h2] at h; simp [takenBy] at h
    | some x =>
      rw [h2] at h
      simp only [takenBy] at h
      split_ifs at h with h3
      obtain ⟨rfl, rfl, rfl⟩ := h3
      exact ⟨by unfold slot; rw [h2]; exact h, rfl⟩

theorem run_snoc (fin : K) (nil : V) (w : World K V) (ops : List (Op K V)) (op : Op K V) :
    run fin nil w (ops ++ [op]) = ((step fin nil (run fin nil w ops).1 op).1,
      (run fin nil w ops).2 ++ [(op, (step fin nil (run fin nil w ops).1 op).2)]) := by
  induction ops generalizing w with
  | nil => rfl
  | cons o ops ih => simp only [List.cons_append, run, ih]

theorem list_snoc_induction {α : Type} {P : List α → Prop} (h0 : P []) (h1 : ∀ l a, P l → P (l ++ [a])) : ∀ l, P l := by
  intro l
  have : ∀ m : List α, P m.reverse := by
    intro m
    induction m with
    | nil => exact h0
    | cons a m ih => rw [List.reverse_cons]; exact h1 _ _ ih
  simpa using this l.reverse

/-! ### C62 -/

/-- C62, every history: what a rank receives under a key is a subsequence of what its peer sent it under that
key (nothing invented, reordered, duplicated or taken from another peer or key). -/
theorem C62_subsequence (fin : K) (nil : V) (ops : List (Op K V)) (i j : Nat) (k : K) :
    let tr := (run fin nil (init K V) ops).2
    (received i j k tr).Sublist (sent fin nil i j k tr) := by
  have main : ∀ ops : List (Op K V),
      (received i j k (run fin nil (init K V) ops).2 ++ (slot (run fin nil (init K V) ops).1 i j k).toList).Sublist
        (sent fin nil i j k (run fin nil (init K V) ops).2) := by
    apply list_snoc_induction
    · simp [run, received, sent, slot, init, find]
    · intro l op ih
      rw [run_snoc]
      simp only
      set w := (run fin nil (init K V) l).1
      set tr := (run fin nil (init K V) l).2
      have hst := slot_step fin nil w op i j k
      have htk := taken_slot fin nil w op i j k
      unfold received sent at *
      rw [List.filterMap_append, List.filterMap_append, hst]
      cases hs : sentBy fin nil i j k (op, (step fin nil w op).2) with
      | some v =>
        cases ht : takenBy i j k (op, (step fin nil w op).2) with
        | some x => rw [(htk x ht).2] at hs; cases hs
        | none =>
          simp only [List.filterMap_cons, List.filterMap_nil, hs, ht, List.append_nil]
          cases hsl : slot w i j k with
          | none =>
            rw [hsl] at ih
            simp only [Option.toList_none, List.append_nil] at ih
            simpa using ih
          | some y =>
            rw [hsl] at ih
            simp only [Option.toList_some, Option.getD_some] at ih ⊢
            exact ih.trans (List.sublist_append_left _ _)
      | none =>
        cases ht : takenBy i j k (op, (step fin nil w op).2) with
        | some x =>
          simp only [List.filterMap_cons, List.filterMap_nil, hs, ht, List.append_nil, Option.toList_none]
          rw [(htk x ht).1] at ih
          simpa using ih
        | none =>
          simp only [List.filterMap_cons, List.filterMap_nil, hs, ht, List.append_nil]
          exact ih
  exact (List.sublist_append_left _ _).trans (main ops)

/-- C62, no loss.  In every history in which no message is sent under a key while an earlier one under the same
key is unread, what was received under that key is exactly what was sent, in order, up to at most one message
still waiting; and the next `Recv` returns that message, or times out when there is none. -/
theorem C62_exact_partial (fin : K) (nil : V) (ops : List (Op K V)) (i j : Nat) (k : K)
    (hno : NoOverlap fin nil i j k (run fin nil (init K V) ops).2) :
    ∃ pending : Option V,
      sent fin nil i j k (run fin nil (init K V) ops).2 =
        received i j k (run fin nil (init K V) ops).2 ++ pending.toList ∧
      (step fin nil (run fin nil (init K V) ops).1 (.recv i j k)).2 = (match pending with | some v => .got v | none => .timeout) := by
  have main : ∀ ops : List (Op K V), NoOverlap fin nil i j k (run fin nil (init K V) ops).2 →
      sent fin nil i j k (run fin nil (init K V) ops).2 =
        received i j k (run fin nil (init K V) ops).2 ++ (slot (run fin nil (init K V) ops).1 i j k).toList := by
    apply list_snoc_induction
    · intro _; simp [run, received, sent, slot, init, find]
    · intro l op ih hno
      rw [run_snoc] at hno ⊢
      simp only at hno ⊢
      set w := (run fin nil (init K V) l).1
      set tr := (run fin nil (init K V) l).2
      have ih := ih (by
        intro pre e post he hsome
        exact hno pre e (post ++ [(op, (step fin nil w op).2)]) (by rw [he]; simp) hsome)
      have hlast := hno tr (op, (step fin nil w op).2) [] rfl
      have hst := slot_step fin nil w op i j k
      have htk := taken_slot fin nil w op i j k
      unfold received sent at *
      rw [List.filterMap_append, List.filterMap_append, hst]
      cases hs : sentBy fin nil i j k (op, (step fin nil w op).2) with
      | some v =>
        have hlen := hlast (by rw [hs]; rfl)
        rw [ih, List.length_append] at hlen
        have hsl : slot w i j k = none := by
          cases h : slot w i j k with
          | none => rfl
          | some y => rw [h] at hlen; simp at hlen
        cases ht : takenBy i j k (op, (step fin nil w op).2) with
        | some x => rw [(htk x ht).2] at hs; cases hs
        | none =>
          simp only [List.filterMap_cons, List.filterMap_nil, hs, ht, List.append_nil]
          rw [ih, hsl]
          simp
      | none =>
        cases ht : takenBy i j k (op, (step fin nil w op).2) with
        | some x =>
          simp only [List.filterMap_cons, List.filterMap_nil, hs, ht, List.append_nil, Option.toList_none]
          rw [ih, (htk x ht).1]
          simp
        | none =>
          simp only [List.filterMap_cons, List.filterMap_nil, hs, ht, List.append_nil]
          exact ih
  refine ⟨slot (run fin nil (init K V) ops).1 i j k, main ops hno, ?_⟩
  simp only [step, slot]
  cases find ((run fin nil (init K V) ops).1 i j).msgs k <;> rfl

/-- C62, independence: a call between other ranks, or under another key, never changes what is waiting. -/
theorem C62_isolated (fin : K) (nil : V) (w : World K V) (op : Op K V) (i j : Nat) (k : K)
    (h : match op with
      | .send a b k' _ => ¬ (a = j ∧ b = i ∧ k' = k)
      | .recv a b k' => ¬ (a = i ∧ b = j ∧ k' = k)
      | .finish a b => ¬ (a = j ∧ b = i ∧ fin = k)
      | .release _ _ => True) :
    (step fin nil (step fin nil w op).1 (.recv i j k)).2 = (step fin nil w (.recv i j k)).2 := by
  have hs : slot (step fin nil w op).1 i j k = slot w i j k := by
    rw [slot_step]
    have h1 : sentBy fin nil i j k (op, (step fin nil w op).2) = none := by
      cases op with
      | send a b k' v =>
        simp only [step, sendImpl]
        split_ifs
        · simp only [sentBy]; rw [if_neg h]
        · rfl
      | finish a b =>
        simp only [step, sendImpl]
        split_ifs
        · rfl
        · simp only [sentBy]; rw [if_neg h]
        · rfl
      | recv a b k' => simp only [step]; cases find (w a b).msgs k' <;> rfl
      | release a b => rfl
    have h2 : takenBy i j k (op, (step fin nil w op).2) = none := by
      cases op with
      | send a b k' v => rfl
      | finish a b => rfl
      | release a b => rfl
      | recv a b k' =>
        simp only [step]
        cases find (w a b).msgs k' with
        | none => rfl
        | some x => simp only [takenBy]; rw [if_neg h]
    rw [h1, h2]
  unfold slot at hs
  generalize (step fin nil w op).1 = w' at hs ⊢
  simp only [step]
  rw [hs]
  cases find (w i j).msgs k <;> rfl

/-- Number of successful finish calls from `j` to `i`. -/
def finishes (i j : Nat) (tr : List (Op K V × Out V)) : Nat :=
  (tr.filter fun e => match e with
    | (.finish a b, .ok) => decide (a = j ∧ b = i)
    | _ => false).length

/-- C62, shutdown: in every history the finish message is sent at most once per direction. -/
theorem C62_finish_once (fin : K) (nil : V) (ops : List (Op K V)) (i j : Nat) :
    finishes i j (run fin nil (init K V) ops).2 ≤ 1 := by
  have main : ∀ ops : List (Op K V),
      finishes i j (run fin nil (init K V) ops).2 ≤ (if ((run fin nil (init K V) ops).1 j i).finished then 1 else 0) := by
    apply list_snoc_induction
    · simp [run, finishes, init]
    · intro l op ih
      rw [run_snoc]
      simp only
      set w := (run fin nil (init K V) l).1
      set tr := (run fin nil (init K V) l).2
      have hsend : ∀ (w : World K V) a b k v, ((sendImpl w a b k v).1 j i).finished = (w j i).finished := by
        intro w a b k v
        unfold sendImpl World.set onMessage
        split_ifs
        · simp only
          split_ifs with h
          · obtain ⟨rfl, rfl⟩ := h
            cases find (w j i).msgs k <;> rfl
          · rfl
        · rfl
      unfold finishes at *
      rw [List.filter_append, List.length_append]
      cases op with
      | send a b k v => simp only [step, hsend]; simpa using ih
      | recv a b k =>
        have : ((step fin nil w (.recv a b k)).1 j i).finished = (w j i).finished := by
          simp only [step]
          cases find (w a b).msgs k with
          | none => rfl
          | some x =>
            simp only [World.set]
            split_ifs with h
            · rw [← h.1, ← h.2]
            · rfl
        rw [this]
        simpa using ih
      | release a b =>
        have : ((step fin nil w (.release a b)).1 j i).finished = (w j i).finished := by
          simp only [step, World.set]
          split_ifs with h
          · rw [← h.1, ← h.2]
          · rfl
        rw [this]
        simpa using ih
      | finish a b =>
        by_cases hf : (w a b).finished
        · have : step fin nil w (.finish a b) = (w, .skipped) := by simp only [step]; rw [if_pos hf]
          rw [this]
          simpa using ih
        · have : step fin nil w (.finish a b) =
              sendImpl (w.set a b { w a b with finished := true }) a b fin nil := by simp only [step]; rw [if_neg hf]
          rw [this, hsend]
          by_cases hab : j = a ∧ i = b
          · obtain ⟨rfl, rfl⟩ := hab
            rw [if_neg hf] at ih
            have h0 : (tr.filter fun e => match e with
              | (.finish a b, .ok) => decide (a = j ∧ b = i)
              | _ => false).length = 0 := by omega
            rw [h0]
            simp only [World.set, and_self, if_true]
            exact Nat.le_trans (Nat.add_le_add_left (List.length_filter_le _ _) 0) (Nat.le_refl 1)
          · simp only [World.set, if_neg hab]
            have : (match (Op.finish a b, (sendImpl (w.set a b { w a b with finished := true }) a b fin nil).2) with
              | ((.finish a b : Op K V), (.ok : Out V)) => decide (a = j ∧ b = i)
              | _ => false) = false := by
              cases (sendImpl (w.set a b { w a b with finished := true }) a b fin nil).2 with
              | ok => simp only [decide_eq_false_iff_not]; rintro ⟨h1, h2⟩; exact hab ⟨h1.symm, h2.symm⟩
              | _ => rfl
            rw [List.filter_cons_of_neg (by rw [this]; simp)]
            simpa using ih
  refine Nat.le_trans (main ops) ?_
  split_ifs <;> omega

/-- C62, shutdown: in a history in which the user does not use the finish key between the two ranks, the wait
inside `WaitLinkTaskFinish` of rank `i` for rank `j` returns exactly if rank `j` has called it too. -/
theorem C62_finish (fin : K) (nil : V) (ops : List (Op K V)) (i j : Nat)
    (h1 : ∀ v, Op.send j i fin v ∉ ops) (h2 : Op.recv i j fin ∉ ops) :
    (step fin nil (run fin nil (init K V) ops).1 (.recv i j fin)).2 =
      if finishes i j (run fin nil (init K V) ops).2 = 1 then .got nil else .timeout := by
  set tr := (run fin nil (init K V) ops).2 with htr
  have hmem : ∀ e ∈ tr, e.1 ∈ ops := by
    have : ∀ (ops : List (Op K V)) (w : World K V), ∀ e ∈ (run fin nil w ops).2, e.1 ∈ ops := by
      intro ops
      induction ops with
      | nil => intro w e he; cases he
      | cons o ops ih =>
        intro w e he
        simp only [run] at he
        rcases List.mem_cons.1 he with rfl | he
        · exact List.mem_cons_self
        · exact List.mem_cons_of_mem _ (ih _ e he)
    exact this ops _
  have hrec : ∀ l, (∀ e ∈ l, e ∈ tr) → received i j fin l = [] := by
    intro l hl
    unfold received
    rw [List.filterMap_eq_nil_iff]
    rintro ⟨op, out⟩ he
    have hin := hmem _ (hl _ he)
    unfold takenBy
    split
    · rename_i a b k' v heq
      cases heq
      rw [if_neg]
      rintro ⟨rfl, rfl, rfl⟩
      exact h2 hin
    · rfl
  have hsent : ∀ l, (∀ e ∈ l, e ∈ tr) → sent fin nil i j fin l = List.replicate (finishes i j l) nil := by
    intro l
    induction l with
    | nil => intro _; rfl
    | cons e l ih =>
      intro hl
      have ih := ih fun x hx => hl x (List.mem_cons_of_mem _ hx)
      have hin := hmem _ (hl e List.mem_cons_self)
      unfold sent finishes at *
      obtain ⟨op, out⟩ := e
      cases op with
      | send a b k' v =>
        have : sentBy fin nil i j fin (Op.send a b k' v, out) = none := by
          cases out <;> simp only [sentBy]
          rw [if_neg]
          rintro ⟨rfl, rfl, rfl⟩
          exact h1 v hin
        rw [List.filterMap_cons_none this, ih]
        simp
      | recv a b k' =>
        rw [List.filterMap_cons_none (by rfl), ih]
        simp
      | release a b =>
        rw [List.filterMap_cons_none (by rfl), ih]
        simp
      | finish a b =>
        cases out with
        | ok =>
          by_cases h : a = j ∧ b = i
          · rw [List.filterMap_cons_some (b := nil) (by simp [sentBy, h]), ih,
              List.filter_cons_of_pos (by simpa using h)]
            rfl
          · rw [List.filterMap_cons_none (by simp only [sentBy]; rw [if_neg (by rintro ⟨x, y, _⟩; exact h ⟨x, y⟩)]), ih,
              List.filter_cons_of_neg (by simpa using h)]
        | got v => rw [List.filterMap_cons_none (by rfl), ih]; simp
        | timeout => rw [List.filterMap_cons_none (by rfl), ih]; simp
        | ioError => rw [List.filterMap_cons_none (by rfl), ih]; simp
        | skipped => rw [List.filterMap_cons_none (by rfl), ih]; simp
  have honce := C62_finish_once fin nil ops i j
  have hlen : (sent fin nil i j fin tr).length ≤ 1 := by rw [hsent tr fun _ h => h]; simpa using honce
  have hno : NoOverlap fin nil i j fin tr := by
    intro pre e post he hs
    have hp : ∀ x ∈ pre, x ∈ tr := by intro x hx; rw [he]; simp [hx]
    rw [hrec pre hp]
    obtain ⟨v, hv⟩ := Option.isSome_iff_exists.1 hs
    rw [he] at hlen
    unfold sent at hlen ⊢
    rw [List.filterMap_append, List.filterMap_cons_some hv] at hlen
    simp only [List.length_append, List.length_cons] at hlen
    simp only [List.length_nil]
    omega
  obtain ⟨pending, hp1, hp2⟩ := C62_exact_partial fin nil ops i j fin hno
  rw [hp2]
  rw [← htr, hrec tr fun _ h => h, hsent tr fun _ h => h, List.nil_append] at hp1
  rcases Nat.le_one_iff_eq_zero_or_eq_one.1 honce with h0 | h0
  · rw [← htr] at h0
    rw [h0] at hp1 ⊢
    cases pending with
    | none => rfl
    | some v => simp at hp1
  · rw [← htr] at h0
    rw [h0] at hp1 ⊢
    cases pending with
    | none => simp at hp1
    | some v => simp at hp1; subst hp1; rfl

/-- C62 without the proviso is false: a second message sent under a key before the first is read is dropped, and
the second `Recv` never returns. -/
theorem C62_violated : (run "_fin_" 0 (init String Nat)
      [.send 0 1 "k" 7, .send 0 1 "k" 8, .recv 1 0 "k", .recv 1 0 "k"]).2.map Prod.snd =
    [.ok, .ok, .got 7, .timeout] := by
  rfl

/-- Non-vacuity: two keys and two directions, with the shutdown handshake at the end. -/
example : (run "_fin_" 0 (init String Nat)
      [.send 0 1 "a" 7, .send 1 0 "a" 9, .recv 1 0 "b", .send 0 1 "b" 8, .recv 1 0 "b", .recv 1 0 "a", .recv 0 1 "a",
        .finish 0 1, .recv 0 1 "_fin_", .finish 1 0, .recv 0 1 "_fin_", .recv 1 0 "_fin_", .finish 0 1]).2.map Prod.snd =
    [.ok, .ok, .timeout, .ok, .got 8, .got 7, .got 9, .ok, .timeout, .ok, .got 0, .got 0, .skipped] := by
  rfl

end Yacl.ChannelMem
