import Verif.Kernel.OtExt

/-! KKRT OPRF: yacl/kernel/algorithms/kkrt_ote.{h,cc}. Property C41.

The generator `stream seed i` (the `i`-th block drawn from `Prg<uint128_t>(seed)`, see C54), the pseudo-random code `prc key x` and the
random oracles are arbitrary functions. -/
namespace Yacl.Kkrt
open Matrix OtExt

/-- A row of `kKkrtWidth = 4` blocks. -/
abbrev Row := Nat → B

/-! ### Model -/

/-- The bytes of a row handed to the hash. -/
def rowData (r : Row) : List B := (List.range 4).map r

/-- kkrt_ote.cc L165-170, L280-287: the choice bits of the base OTs, as a row. -/
def sRow (b : Base) : Row := fun w => word fun k => b.s (w * 128 + k)

/-- kkrt_ote.cc L43-51 `PrcInit`: each party xors its own seed with the one received. -/
def prcKey (mine peer : B) : B := mine ^^^ peer

/-- One 128 x 128 matrix of a batch, transposed: word `w` of the rows (kkrt_ote.cc L185-197, L256-271). -/
def batchCols (stream : B → Nat → B) (key : Nat → B) (junk : Junk) (batch w : Nat) : Mat :=
  sseTranspose junk fun k => stream (key (w * 128 + k)) batch

/-- kkrt_ote.cc L256-283: the receiver's `T` and the message `U` of batch `batch`. -/
def recvT (stream : B → Nat → B) (b : Base) (junk : Junk) (batch i : Nat) : Row := fun w => batchCols stream b.k0 junk batch w i
def recvU (stream : B → Nat → B) (prc : B → Row) (b : Base) (junk : Junk) (inputs : List B) (batch i : Nat) : Row := fun w =>
  batchCols stream b.k1 junk batch w i ^^^ recvT stream b junk batch i w ^^^ prc (inputs.getD (batch * 128 + i) 0) w

/-- kkrt_ote.cc L227-295 `KkrtOtExtRecv`: the messages and the receiver's values; `h` is `RO_Blake3_128`. -/
def kkrtRecv (stream : B → Nat → B) (prc : B → B → Row) (h : List B → B) (b : Base) (mine peer : B) (junk : Junk) (inputs : List B) :
    Option ((Nat → Nat → Row) × List B) :=
  if inputs = [] then none
  else
    let n := inputs.length
    some (recvU stream (prc (prcKey mine peer)) b junk inputs, collect n ((n + 128 - 1) / 128) fun batch i => h (rowData (recvT stream b junk batch i)))

/-- kkrt_ote.cc L157-225 `KkrtOtExtSend`: the rows `q_` of the PRF object. -/
def kkrtSend (stream : B → Nat → B) (b : Base) (junk : Junk) (n : Nat) (u : Nat → Nat → Row) : Option (List Row) :=
  if n = 0 then none
  else some (collect n ((n + 128 - 1) / 128) fun batch i w => batchCols stream b.ks junk batch w i ^^^ (u batch i w &&& sRow b w))

/-- kkrt_ote.cc L77-90 `Eval` (and L94-110 with another output length: `h` may be any function of the row). -/
def eval {α : Type} (prc : B → B → Row) (h : List B → α) (b : Base) (mine peer : B) (q : List Row) (group : Nat) (input : B) : Option α :=
  match q[group]? with
  | none => none
  | some r => some (h (rowData fun w => (prc (prcKey mine peer) input w &&& sRow b w) ^^^ r w))

/-- kkrt_ote.cc L296-332, L376-432: the rows written by the offline phase, in the order of the loops: batches of 1024, eight blocks of 128 (the `break`
leaves only blocks without elements). Row `i * 128 + j` of a batch is `[j][i]` of the transposed matrix. -/
def offline (stream : B → Nat → B) (key : Nat → B) (junk : Junk) (n : Nat) : List Row :=
  (List.range ((n + 1024 - 1) / 1024)).flatMap fun batch =>
    collect (min (n - batch * 1024) 1024) 8 fun i j w => sse1024 junk (fun k j => stream (key (w * 128 + k)) (batch * 8 + j)) j i

/-- The two online objects `KkrtOtExtSender` and `KkrtOtExtReceiver` after `Init`, with the link between them. -/
structure Online where
  t : List Row
  u : List Row
  recvIdx : Nat
  q : List Row
  sendIdx : Nat

/-- kkrt_ote.cc L276-334 and L376-432: `Init` on both sides. -/
def onlineInit (stream : B → Nat → B) (b : Base) (j1 j2 : Junk) (n : Nat) : Option Online :=
  if n = 0 then none
  else some { t := offline stream b.k0 j2 n, u := offline stream b.k1 j2 n, recvIdx := 0, q := offline stream b.ks j1 n, sendIdx := 0 }

/-- A call: `Encode(i, x)`, `ZeroEncode(i)`, or a correction of `count` rows sent and received. -/
inductive Op where
  | encode (i : Nat) (x : B)
  | zero (i : Nat)
  | correct (count : Nat)

/-- kkrt_ote.cc L136-150 `CalcQ` on the sender's rows. -/
def calcQ (s : Row) (q u : List Row) (offset : Nat) : List Row :=
  (List.range u.length).foldl (fun q i => q.set (offset + i) fun w => q.getD (offset + i) (fun _ => 0) w ^^^ (u.getD i (fun _ => 0) w &&& s w)) q

/-- kkrt_ote.cc L336-372 (`RecvCorrection`, `SetCorrection`), L434-498 (`Encode`, `ZeroEncode`, `SendCorrection`, `ShiftCorrection`). `none` for accesses
outside the arrays and failed checks. A correction carries a copy of the receiver's rows, and the sender only changes by receiving it, so sending and
receiving is one step. The encoded value is returned. -/
def step {α : Type} (prc : B → Row) (ro : List B → α) (b : Base) (o : Online) : Op → Option (Online × Option α)
  | .encode i x =>
    match o.t[i]?, o.u[i]? with
    | some t, some u => some ({ o with u := o.u.set i fun w => u w ^^^ t w ^^^ prc x w }, some (ro (rowData t)))
    | _, _ => none
  | .zero i =>
    match o.t[i]?, o.u[i]? with
    | some t, some u => some ({ o with u := o.u.set i fun w => u w ^^^ t w }, none)
    | _, _ => none
  | .correct count =>
    if o.recvIdx + count ≤ o.u.length ∧ o.sendIdx + count ≤ o.q.length then
      let msg := (o.u.drop o.recvIdx).take count
      some ({ o with recvIdx := o.recvIdx + count, q := calcQ (sRow b) o.q msg o.sendIdx, sendIdx := o.sendIdx + count }, none)
    else none

/-- A history of calls. -/
def run {α : Type} (prc : B → Row) (ro : List B → α) (b : Base) : Online → List Op → Option (Online × List (Option α))
  | o, [] => some (o, [])
  | o, op :: ops =>
    match step prc ro b o op with
    | none => none
    | some (o', out) =>
      match run prc ro b o' ops with
      | none => none
      | some (o'', outs) => some (o'', out :: outs)

/-! ### Specification -/

/-- The calls for row `i` made before the correction that covers row `i` was sent (`done` rows have been corrected so far): inputs encoded, `none` for
`ZeroEncode`. `none` if no correction covers the row. -/
def callsBefore (i : Nat) : Nat → List (Option B) → List Op → Option (List (Option B))
  | _, _, [] => none
  | done, acc, .encode j x :: ops => callsBefore i done (if j = i then acc ++ [some x] else acc) ops
  | done, acc, .zero j :: ops => callsBefore i done (if j = i then acc ++ [none] else acc) ops
  | done, acc, .correct n :: ops => if i < done + n then some acc else callsBefore i (done + n) acc ops

/-! ### Lemmas -/

theorem collect_range {α : Type} (n : Nat) (f : Nat → Nat → α) (m : Nat) :
    collect n m f = (List.range (min n (m * 128))).map fun q => f (q / 128) (q % 128) := by
  induction m with
  | zero => simp [collect]
  | succ m ih =>
    have hs : collect n (m + 1) f = collect n m f ++ (List.range (min 128 (n - m * 128))).map (f m) := by
      unfold collect
      rw [List.range_succ, List.flatMap_append]
      simp
    rw [hs, ih]
    by_cases h : n ≤ m * 128
    · rw [show min 128 (n - m * 128) = 0 by omega, show min n ((m + 1) * 128) = min n (m * 128) by omega]
      simp
    · rw [show min n ((m + 1) * 128) = m * 128 + min 128 (n - m * 128) by omega, show min n (m * 128) = m * 128 by omega, List.range_add, List.map_append,
        List.map_map]
      congr 1
      apply List.map_congr_left
      intro j hj
      rw [List.mem_range] at hj
      simp only [Function.comp]
      rw [show (m * 128 + j) / 128 = m by omega, show (m * 128 + j) % 128 = j by omega]

theorem sRow_bit (b : Base) (w c : Nat) (hc : c < 128) : (sRow b w).getLsbD c = b.s (w * 128 + c) := word_bit _ c hc

theorem pick_bit (b : Base) (stream : B → Nat → B) (k i j : Nat) :
    (stream (b.ks k) i).getLsbD j = (((stream (b.k1 k) i).getLsbD j ^^ (stream (b.k0 k) i).getLsbD j) && b.s k ^^ (stream (b.k0 k) i).getLsbD j) := by
  unfold Base.ks
  cases b.s k <;> simp

theorem bits_core (a t s p : Bool) : ((((a ^^ t) && s) ^^ t) ^^ ((a ^^ t ^^ p) && s)) = (t ^^ (p && s)) := by
  cases a <;> cases t <;> cases s <;> cases p <;> rfl

/-- The sender's row before correction, corrected with the receiver's message for code word `p`, is the receiver's row shifted by `p & S`. -/
theorem row_core (b : Base) (stream : B → Nat → B) (x0 x1 xs s p : B) (k i r : Nat)
    (h0 : ∀ c < 128, x0.getLsbD c = (stream (b.k0 (k + c)) i).getLsbD r)
    (h1 : ∀ c < 128, x1.getLsbD c = (stream (b.k1 (k + c)) i).getLsbD r)
    (hs : ∀ c < 128, xs.getLsbD c = (stream (b.ks (k + c)) i).getLsbD r)
    (hS : ∀ c < 128, s.getLsbD c = b.s (k + c)) :
    xs ^^^ ((x1 ^^^ x0 ^^^ p) &&& s) = x0 ^^^ (p &&& s) := by
  apply BitVec.eq_of_getLsbD_eq
  intro c hc
  simp only [BitVec.getLsbD_xor, BitVec.getLsbD_and]
  rw [hs c hc, pick_bit, ← h0 c hc, ← h1 c hc, ← hS c hc]
  exact bits_core _ _ _ _

theorem batch_core (b : Base) (stream : B → Nat → B) (j1 j2 : Junk) (p : B) (batch w i : Nat) (hi : i < 128) :
    batchCols stream b.ks j1 batch w i ^^^ ((batchCols stream b.k1 j2 batch w i ^^^ batchCols stream b.k0 j2 batch w i ^^^ p) &&& sRow b w) =
      batchCols stream b.k0 j2 batch w i ^^^ (p &&& sRow b w) :=
  row_core b stream _ _ _ _ p (w * 128) batch i (fun c hc => (C28_sse_transposes j2 _).1 i hi c hc) (fun c hc => (C28_sse_transposes j2 _).1 i hi c hc)
    (fun c hc => (C28_sse_transposes j1 _).1 i hi c hc) (fun c hc => sRow_bit b w c hc)

theorem cancel (p t : B) : p ^^^ (t ^^^ p) = t := by
  rw [BitVec.xor_comm t, ← BitVec.xor_assoc, BitVec.xor_self, BitVec.zero_xor]

/-- C41. For every list of inputs, generator, code, oracle, base OTs, seeds: the receiver's value number `i` is the sender's PRF of group `i` at input `i`,
for every output length of the evaluation. -/
theorem C41_kkrt (stream : B → Nat → B) (prc : B → B → Row) (h : List B → B) (b : Base) (r1 r2 : B) (j1 j2 : Junk) (inputs : List B) (hne : inputs ≠ []) :
    ∃ u recv q, kkrtRecv stream prc h b r2 r1 j2 inputs = some (u, recv) ∧ kkrtSend stream b j1 inputs.length u = some q ∧
      recv.length = inputs.length ∧ q.length = inputs.length ∧
      ∀ (i : Nat) (x v : B), inputs[i]? = some x → recv[i]? = some v → eval prc h b r1 r2 q i x = some v := by
  have hn : inputs.length ≠ 0 := by simpa using hne
  refine ⟨_, _, _, by rw [kkrtRecv, if_neg hne], by rw [kkrtSend, if_neg hn], ?_, ?_, ?_⟩
  · rw [collect_range, List.length_map, List.length_range]; omega
  · rw [collect_range, List.length_map, List.length_range]; omega
  intro i x v hx hv
  have hi : i < inputs.length := by
    by_contra hcon
    rw [List.getElem?_eq_none (by omega)] at hx
    simp at hx
  rw [collect_range] at hv
  rw [collect_range]
  have hmin : min inputs.length ((inputs.length + 128 - 1) / 128 * 128) = inputs.length := by omega
  rw [hmin, List.getElem?_map, List.getElem?_range hi] at hv
  unfold eval
  rw [hmin, List.getElem?_map, List.getElem?_range hi]
  simp only [Option.map_some, Option.some.injEq] at hv ⊢
  rw [← hv]
  congr 1
  unfold rowData
  apply List.map_congr_left
  intro w _
  simp only [recvU, recvT]
  rw [batch_core b stream j1 j2 _ _ _ _ (Nat.mod_lt _ (by omega)), Nat.mul_comm (i / 128), Nat.div_add_mod, List.getD_eq_getElem?_getD, hx]
  rw [show prcKey r1 r2 = prcKey r2 r1 from BitVec.xor_comm _ _]
  exact cancel _ _

/-! ### The online objects -/

theorem batches_eq {α : Type} (n : Nat) (f : Nat → Nat → Nat → α) (m : Nat) :
    (List.range m).flatMap (fun batch => collect (min (n - batch * 1024) 1024) 8 (f batch)) =
      (List.range (min n (m * 1024))).map fun r => f (r / 1024) (r % 1024 / 128) (r % 128) := by
  induction m with
  | zero => simp
  | succ m ih =>
    rw [List.range_succ, List.flatMap_append, ih, List.flatMap_singleton, collect_range]
    by_cases h : n ≤ m * 1024
    · rw [show min (min (n - m * 1024) 1024) (8 * 128) = 0 by omega, show min n ((m + 1) * 1024) = min n (m * 1024) by omega]
      simp
    · rw [show min n ((m + 1) * 1024) = m * 1024 + min (min (n - m * 1024) 1024) (8 * 128) by omega, show min n (m * 1024) = m * 1024 by omega, List.range_add,
        List.map_append, List.map_map]
      congr 1
      apply List.map_congr_left
      intro j hj
      rw [List.mem_range] at hj
      simp only [Function.comp]
      rw [show (m * 1024 + j) / 1024 = m by omega, show (m * 1024 + j) % 128 = j % 128 by omega, show (m * 1024 + j) % 1024 / 128 = j / 128 by omega]

theorem offline_eq (stream : B → Nat → B) (key : Nat → B) (junk : Junk) (n : Nat) :
    offline stream key junk n = (List.range n).map fun r w =>
      sse1024 junk (fun k j => stream (key (w * 128 + k)) (r / 1024 * 8 + j)) (r % 128) (r % 1024 / 128) := by
  have := batches_eq n (fun batch i j (w : Nat) => sse1024 junk (fun k j => stream (key (w * 128 + k)) (batch * 8 + j)) j i) ((n + 1024 - 1) / 1024)
  rw [show min n ((n + 1024 - 1) / 1024 * 1024) = n by omega] at this
  exact this

theorem offline_core (b : Base) (stream : B → Nat → B) (j1 j2 : Junk) (p : B) (w r : Nat) :
    sse1024 j1 (fun k j => stream (b.ks (w * 128 + k)) (r / 1024 * 8 + j)) (r % 128) (r % 1024 / 128) ^^^
      ((sse1024 j2 (fun k j => stream (b.k1 (w * 128 + k)) (r / 1024 * 8 + j)) (r % 128) (r % 1024 / 128) ^^^
        sse1024 j2 (fun k j => stream (b.k0 (w * 128 + k)) (r / 1024 * 8 + j)) (r % 128) (r % 1024 / 128) ^^^ p) &&& sRow b w) =
      sse1024 j2 (fun k j => stream (b.k0 (w * 128 + k)) (r / 1024 * 8 + j)) (r % 128) (r % 1024 / 128) ^^^ (p &&& sRow b w) := by
  have h1 : r % 128 < 128 := Nat.mod_lt _ (by omega)
  have h2 : r % 1024 / 128 < 8 := by omega
  exact row_core b stream _ _ _ _ p (w * 128) (r / 1024 * 8 + r % 1024 / 128) (r % 128)
    (fun c hc => (C28_sse1024_transposes j2 _).1 _ h1 _ h2 c hc) (fun c hc => (C28_sse1024_transposes j2 _).1 _ h1 _ h2 c hc)
    (fun c hc => (C28_sse1024_transposes j1 _).1 _ h1 _ h2 c hc) (fun c hc => sRow_bit b w c hc)

theorem calcQ_length (s : Row) (q u : List Row) (offset : Nat) : (calcQ s q u offset).length = q.length := by
  have : ∀ n, ((List.range n).foldl (fun q i => q.set (offset + i) fun w => q.getD (offset + i) (fun _ => 0) w ^^^ (u.getD i (fun _ => 0) w &&& s w)) q).length = q.length := by
    intro n
    induction n with
    | zero => rfl
    | succ n ih => rw [List.range_succ, List.foldl_append]; simpa using ih
  exact this _

theorem calcQ_get (s : Row) (q u : List Row) (offset : Nat) (hb : offset + u.length ≤ q.length) (i : Nat) (hi : i < q.length) :
    (calcQ s q u offset).getD i (fun _ => 0) =
      if offset ≤ i ∧ i < offset + u.length then fun w => q.getD i (fun _ => 0) w ^^^ (u.getD (i - offset) (fun _ => 0) w &&& s w)
      else q.getD i (fun _ => 0) := by
  have key : ∀ n, n ≤ u.length →
      ((List.range n).foldl (fun q i => q.set (offset + i) fun w => q.getD (offset + i) (fun _ => 0) w ^^^ (u.getD i (fun _ => 0) w &&& s w)) q).length = q.length ∧
      ((List.range n).foldl (fun q i => q.set (offset + i) fun w => q.getD (offset + i) (fun _ => 0) w ^^^ (u.getD i (fun _ => 0) w &&& s w)) q).getD i (fun _ => 0) =
      if offset ≤ i ∧ i < offset + n then fun w => q.getD i (fun _ => 0) w ^^^ (u.getD (i - offset) (fun _ => 0) w &&& s w)
      else q.getD i (fun _ => 0) := by
    intro n hn
    induction n with
    | zero =>
      refine ⟨rfl, ?_⟩
      rw [if_neg (by omega)]
      rfl
    | succ n ih =>
      obtain ⟨ih1, ih2⟩ := ih (by omega)
      rw [List.range_succ, List.foldl_append]
      simp only [List.foldl_cons, List.foldl_nil]
      refine ⟨by rw [List.length_set]; exact ih1, ?_⟩
      generalize (List.range n).foldl (fun q i => q.set (offset + i) fun w => q.getD (offset + i) (fun _ => 0) w ^^^ (u.getD i (fun _ => 0) w &&& s w)) q = Q at *
      by_cases he : i = offset + n
      · subst he
        rw [if_neg (by omega)] at ih2
        rw [if_pos (by omega), List.getD_eq_getElem?_getD, List.getElem?_set_self (by omega), Option.getD_some, ih2, show offset + n - offset = n by omega]
      · rw [List.getD_eq_getElem?_getD, List.getElem?_set_ne (fun h => he h.symm), ← List.getD_eq_getElem?_getD, ih2]
        by_cases hc : offset ≤ i ∧ i < offset + n
        · rw [if_pos hc, if_pos (by omega)]
        · rw [if_neg hc, if_neg (by omega)]
  exact (key u.length (le_refl _)).2

/-- What row `i` of the receiver's correction has become after some calls. -/
def uAfter (prc : B → Row) (u t : Row) : List (Option B) → Row
  | [] => u
  | some x :: l => uAfter prc (fun w => u w ^^^ t w ^^^ prc x w) t l
  | none :: l => uAfter prc (fun w => u w ^^^ t w) t l

theorem uAfter_append (prc : B → Row) (u t : Row) (l : List (Option B)) (a : Option B) : uAfter prc u t (l ++ [a]) = uAfter prc (uAfter prc u t l) t [a] := by
  induction l generalizing u with
  | nil => rfl
  | cons x l ih => cases x <;> exact ih _

theorem run_q {α : Type} (prc : B → Row) (ro : List B → α) (b : Base) (i : Nat) (u0 : Row) (ops : List Op) :
    ∀ (o o' : Online) (outs : List (Option α)) (acc : List (Option B)), run prc ro b o ops = some (o', outs) → o.recvIdx = o.sendIdx → o.u.length = o.q.length →
      o.t.length = o.q.length → i < o.q.length → (o.recvIdx ≤ i → o.u.getD i (fun _ => 0) = uAfter prc u0 (o.t.getD i (fun _ => 0)) acc) →
      o'.t = o.t ∧ o'.q.length = o.q.length ∧
      (i < o.recvIdx → o'.q.getD i (fun _ => 0) = o.q.getD i (fun _ => 0)) ∧
      (∀ calls, o.recvIdx ≤ i → callsBefore i o.recvIdx acc ops = some calls →
        o'.q.getD i (fun _ => 0) = fun w => o.q.getD i (fun _ => 0) w ^^^ (uAfter prc u0 (o.t.getD i (fun _ => 0)) calls w &&& sRow b w)) := by
  induction ops with
  | nil =>
    intro o o' outs acc hr hidx hul htl hi hu
    simp only [run, Option.some.injEq, Prod.mk.injEq] at hr
    obtain ⟨rfl, rfl⟩ := hr
    exact ⟨rfl, rfl, fun _ => rfl, fun calls _ hc => by simp [callsBefore] at hc⟩
  | cons op ops ih =>
    intro o o' outs acc hr hidx hul htl hi hu
    simp only [run] at hr
    cases hs : step prc ro b o op with
    | none => rw [hs] at hr; simp at hr
    | some p =>
      obtain ⟨o1, out⟩ := p
      rw [hs] at hr
      simp only at hr
      cases hr1 : run prc ro b o1 ops with
      | none => rw [hr1] at hr; simp at hr
      | some p =>
        obtain ⟨o2, outs'⟩ := p
        rw [hr1] at hr
        simp only [Option.some.injEq, Prod.mk.injEq] at hr
        obtain ⟨rfl, rfl⟩ := hr
        cases op with
        | encode j x =>
          simp only [step] at hs
          cases ht : o.t[j]? with
          | none => rw [ht] at hs; simp at hs
          | some t =>
            cases hu' : o.u[j]? with
            | none => rw [ht, hu'] at hs; simp at hs
            | some u =>
              rw [ht, hu'] at hs
              simp only [Option.some.injEq, Prod.mk.injEq] at hs
              obtain ⟨rfl, rfl⟩ := hs
              have g := ih _ o2 outs' (if j = i then acc ++ [some x] else acc) hr1
              refine g hidx (by simpa using hul) htl hi ?_
              intro hle
              simp only at hle ⊢
              by_cases hj : j = i
              · subst hj
                rw [if_pos rfl, uAfter_append, ← hu hle, List.getD_eq_getElem?_getD, List.getElem?_set_self (by omega), Option.getD_some]
                simp only [uAfter, List.getD_eq_getElem?_getD, ht, hu', Option.getD_some]
              · rw [if_neg hj, List.getD_eq_getElem?_getD, List.getElem?_set_ne hj, ← List.getD_eq_getElem?_getD]
                exact hu hle
        | zero j =>
          simp only [step] at hs
          cases ht : o.t[j]? with
          | none => rw [ht] at hs; simp at hs
          | some t =>
            cases hu' : o.u[j]? with
            | none => rw [ht, hu'] at hs; simp at hs
            | some u =>
              rw [ht, hu'] at hs
              simp only [Option.some.injEq, Prod.mk.injEq] at hs
              obtain ⟨rfl, rfl⟩ := hs
              have g := ih _ o2 outs' (if j = i then acc ++ [none] else acc) hr1
              refine g hidx (by simpa using hul) htl hi ?_
              intro hle
              simp only at hle ⊢
              by_cases hj : j = i
              · subst hj
                rw [if_pos rfl, uAfter_append, ← hu hle, List.getD_eq_getElem?_getD, List.getElem?_set_self (by omega), Option.getD_some]
                simp only [uAfter, List.getD_eq_getElem?_getD, ht, hu', Option.getD_some]
              · rw [if_neg hj, List.getD_eq_getElem?_getD, List.getElem?_set_ne hj, ← List.getD_eq_getElem?_getD]
                exact hu hle
        | correct n =>
          simp only [step] at hs
          by_cases hc : o.recvIdx + n ≤ o.u.length ∧ o.sendIdx + n ≤ o.q.length
          · rw [if_pos hc] at hs
            simp only [Option.some.injEq, Prod.mk.injEq] at hs
            obtain ⟨rfl, rfl⟩ := hs
            have hml : ((o.u.drop o.recvIdx).take n).length = n := by rw [List.length_take, List.length_drop]; omega
            have hq := calcQ_get (sRow b) o.q ((o.u.drop o.recvIdx).take n) o.sendIdx (by omega) i hi
            have hql := calcQ_length (sRow b) o.q ((o.u.drop o.recvIdx).take n) o.sendIdx
            obtain ⟨h1, h2, h3, h4⟩ := ih _ _ _ acc hr1 (by simp only; omega) (by simp only [hql]; exact hul) (by simp only [hql]; exact htl) (by simp only [hql]; exact hi)
              (fun hle => hu (by simp only at hle; omega))
            simp only [hql] at h1 h2 h3 h4
            refine ⟨h1, h2, ?_, ?_⟩
            · intro hlt
              rw [h3 (by omega), hq, if_neg (by omega)]
            · intro calls hle hcb
              simp only [callsBefore] at hcb
              by_cases hlt : i < o.recvIdx + n
              · rw [if_pos hlt, Option.some.injEq] at hcb
                subst hcb
                rw [h3 hlt, hq, if_pos (by omega), ← hu hle]
                have e : ((o.u.drop o.recvIdx).take n).getD (i - o.sendIdx) (fun _ => 0) = o.u.getD i (fun _ => 0) := by
                  rw [List.getD_eq_getElem?_getD, List.getElem?_take_of_lt (by omega), List.getElem?_drop, ← List.getD_eq_getElem?_getD,
                    show o.recvIdx + (i - o.sendIdx) = i by omega]
                rw [e]
              · rw [if_neg hlt] at hcb
                rw [h4 calls (by omega) hcb, hq, if_neg (by omega)]
          · rw [if_neg hc] at hs
            simp at hs

theorem run_outs {α : Type} (prc : B → Row) (ro : List B → α) (b : Base) (ops : List Op) :
    ∀ (o o' : Online) (outs : List (Option α)), run prc ro b o ops = some (o', outs) → outs.length = ops.length ∧
      ∀ (k : Nat) (i : Nat) (x : B), ops[k]? = some (.encode i x) → ∃ t, o.t[i]? = some t ∧ outs[k]? = some (some (ro (rowData t))) := by
  induction ops with
  | nil =>
    intro o o' outs hr
    simp only [run, Option.some.injEq, Prod.mk.injEq] at hr
    obtain ⟨rfl, rfl⟩ := hr
    exact ⟨rfl, fun k i x h => by simp at h⟩
  | cons op ops ih =>
    intro o o' outs hr
    simp only [run] at hr
    cases hs : step prc ro b o op with
    | none => rw [hs] at hr; simp at hr
    | some p =>
      obtain ⟨o1, out⟩ := p
      rw [hs] at hr
      simp only at hr
      cases hr1 : run prc ro b o1 ops with
      | none => rw [hr1] at hr; simp at hr
      | some p =>
        obtain ⟨o2, outs'⟩ := p
        rw [hr1] at hr
        simp only [Option.some.injEq, Prod.mk.injEq] at hr
        obtain ⟨rfl, rfl⟩ := hr
        obtain ⟨il, ig⟩ := ih _ _ _ hr1
        have ht : o1.t = o.t := by
          cases op with
          | encode j y =>
            simp only [step] at hs
            cases ht : o.t[j]? with
            | none => rw [ht] at hs; simp at hs
            | some t =>
              cases hu' : o.u[j]? with
              | none => rw [ht, hu'] at hs; simp at hs
              | some u => rw [ht, hu'] at hs; simp only [Option.some.injEq, Prod.mk.injEq] at hs; rw [← hs.1]
          | zero j =>
            simp only [step] at hs
            cases ht : o.t[j]? with
            | none => rw [ht] at hs; simp at hs
            | some t =>
              cases hu' : o.u[j]? with
              | none => rw [ht, hu'] at hs; simp at hs
              | some u => rw [ht, hu'] at hs; simp only [Option.some.injEq, Prod.mk.injEq] at hs; rw [← hs.1]
          | correct n =>
            simp only [step] at hs
            split at hs
            · simp only [Option.some.injEq, Prod.mk.injEq] at hs; rw [← hs.1]
            · simp at hs
        refine ⟨by simp [il], fun k i x hk => ?_⟩
        cases k with
        | zero =>
          simp only [List.getElem?_cons_zero, Option.some.injEq] at hk
          subst hk
          simp only [step] at hs
          cases ht : o.t[i]? with
          | none => rw [ht] at hs; simp at hs
          | some t =>
            cases hu' : o.u[i]? with
            | none => rw [ht, hu'] at hs; simp at hs
            | some u =>
              rw [ht, hu'] at hs
              simp only [Option.some.injEq, Prod.mk.injEq] at hs
              exact ⟨t, rfl, by rw [← hs.2]; rfl⟩
        | succ k =>
          rw [List.getElem?_cons_succ] at hk ⊢
          rw [← ht]
          exact ig k i x hk

/-- C41, online objects. For every number of groups and every history of calls: if, before the correction covering group `i` was sent, group `i` was
encoded exactly once, at `x`, then the sender's evaluation of group `i` at `x` equals what that `Encode` call returned. -/
theorem C41_online {α : Type} (stream : B → Nat → B) (prc : B → B → Row) (ro : List B → α) (b : Base) (r1 r2 : B) (j1 j2 : Junk) (n : Nat) (hn : n ≠ 0) :
    ∃ o, onlineInit stream b j1 j2 n = some o ∧
      ∀ (ops : List Op) (o' : Online) (outs : List (Option α)) (k i : Nat) (x : B), run (prc (prcKey r2 r1)) ro b o ops = some (o', outs) →
        ops[k]? = some (.encode i x) → callsBefore i 0 [] ops = some [some x] →
        ∃ v, outs[k]? = some (some v) ∧ eval prc ro b r1 r2 o'.q i x = some v := by
  refine ⟨_, by rw [onlineInit, if_neg hn], ?_⟩
  intro ops o' outs k i x hr hk hc
  obtain ⟨_, hout⟩ := run_outs _ _ _ _ _ _ _ hr
  obtain ⟨t, ht, hv⟩ := hout k i x hk
  refine ⟨_, hv, ?_⟩
  simp only at ht
  rw [offline_eq] at ht
  have hi : i < n := by
    by_contra hcon
    rw [List.getElem?_eq_none (by simp; omega)] at ht
    simp at ht
  rw [List.getElem?_map, List.getElem?_range hi] at ht
  simp only [Option.map_some, Option.some.injEq] at ht
  have hlen : ∀ key junk, (offline stream key junk n).length = n := fun key junk => by rw [offline_eq]; simp
  have hget : ∀ key junk, (offline stream key junk n).getD i (fun _ => 0) = fun w =>
      sse1024 junk (fun k j => stream (key (w * 128 + k)) (i / 1024 * 8 + j)) (i % 128) (i % 1024 / 128) := fun key junk => by
    rw [offline_eq, List.getD_eq_getElem?_getD, List.getElem?_map, List.getElem?_range hi]
    rfl
  obtain ⟨_, hql, _, hq⟩ := run_q (prc (prcKey r2 r1)) ro b i ((offline stream b.k1 j2 n).getD i fun _ => 0) ops _ _ _ [] hr rfl
    (by simp only [hlen]) (by simp only [hlen]) (by simp only [hlen]; exact hi) (fun _ => rfl)
  have hq' := hq _ (Nat.zero_le _) hc
  simp only [hlen] at hql
  simp only [hget, uAfter] at hq'
  unfold eval
  have hqi : o'.q[i]? = some (o'.q.getD i fun _ => 0) := by
    rw [List.getD_eq_getElem?_getD, List.getElem?_eq_getElem (by omega)]
    rfl
  rw [hqi, hq']
  simp only [Option.some.injEq]
  congr 1
  unfold rowData
  apply List.map_congr_left
  intro w _
  rw [offline_core, show prcKey r1 r2 = prcKey r2 r1 from BitVec.xor_comm _ _, ← ht]
  exact cancel _ _

/-- A history that satisfies the hypotheses for three groups out of order: two corrections, group 1 encoded first. -/
example : callsBefore 1 0 [] [.encode 1 7, .encode 0 5, .correct 2, .encode 2 9, .correct 1] = some [some 7] ∧
    callsBefore 2 0 [] [.encode 1 7, .encode 0 5, .correct 2, .encode 2 9, .correct 1] = some [some 9] := by decide
example : ([5, 7] : List B) ≠ [] := by simp
/-- Such a history runs to the end. -/
example (stream : B → Nat → B) (prc : B → Row) (b : Base) (j1 j2 : Junk) :
    ∃ o r, onlineInit stream b j1 j2 3 = some o ∧ run prc id b o [.encode 1 7, .encode 0 5, .correct 2, .encode 2 9, .correct 1] = some r := by
  have hl : ∀ key junk, (offline stream key junk 3).length = 3 := fun key junk => by rw [offline_eq]; simp
  have hg : ∀ key junk, ∃ a b c, offline stream key junk 3 = [a, b, c] := fun key junk => by
    have := hl key junk
    match h : offline stream key junk 3, this with
    | [a, b, c], _ => exact ⟨a, b, c, rfl⟩
  obtain ⟨t0, t1, t2, ht⟩ := hg b.k0 j2
  obtain ⟨u0, u1, u2, hu⟩ := hg b.k1 j2
  obtain ⟨q0, q1, q2, hq⟩ := hg b.ks j1
  simp [onlineInit, run, step, ht, hu, hq, calcQ_length]

end Yacl.Kkrt
