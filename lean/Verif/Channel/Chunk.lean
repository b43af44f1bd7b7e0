import Verif.Channel.Model
import Mathlib.Algebra.BigOperators.Group.Finset.Basic
import Mathlib.Algebra.Order.BigOperators.Group.Finset
import Mathlib.Tactic.Ring

/-! Chunk splitting and reassembly: property theorems C05, C06, C07. -/
namespace Yacl.Channel

/-- Length of the `j`-th chunk. -/
def chunkLen (len per j : Nat) : Nat := min per (len - j * per)

/-- Data of the `j`-th chunk. -/
def chunkData (value : Bytes) (per j : Nat) : Bytes := (value.drop (j * per)).take (chunkLen value.length per j)

theorem chunkData_length (value : Bytes) (per j : Nat) : (chunkData value per j).length = chunkLen value.length per j := by
  unfold chunkData chunkLen
  simp only [List.length_take, List.length_drop]
  omega

theorem lt_numChunks (len per j : Nat) (hp : 0 < per) : j < numChunks len per ↔ j * per < len := by
  unfold numChunks
  rw [Nat.lt_iff_add_one_le, Nat.le_div_iff_mul_le hp, Nat.add_mul, Nat.one_mul]
  omega

theorem sendChunked_eq (per : Nat) (key value : Bytes) :
    sendChunked per key value =
      (List.range (numChunks value.length per)).map
        (fun j => Request.chunk key (chunkData value per j) (j * per) value.length) := rfl

theorem take_chunks (value : Bytes) (per : Nat) (m : Nat) :
    ((List.range m).map (chunkData value per)).flatten = value.take (m * per) := by
  induction m with
  | zero => simp
  | succ m ih =>
    rw [List.range_succ, List.map_append, List.flatten_append, ih]
    simp only [List.map_cons, List.map_nil, List.flatten_cons, List.flatten_nil, List.append_nil]
    rw [Nat.add_mul, Nat.one_mul, List.take_add]
    congr 1
    unfold chunkData chunkLen
    rw [← List.length_drop, List.take_eq_take_iff]
    simp

/-- **C06.** For every message and every positive maximum chunk size, the requests of a chunked send carry: data that is
non-empty and at most the maximum size, an offset equal to the total size of the preceding chunks, and the total length of
the message; their data concatenated in order is the message. -/
theorem C06_chunks_cover_message (per : Nat) (key value : Bytes) (hp : 0 < per) :
    ∃ datas : List Bytes,
      sendChunked per key value =
        (List.range datas.length).map (fun j =>
          Request.chunk key (datas.getD j []) ((datas.take j).flatten.length) value.length) ∧
      datas.flatten = value ∧
      ∀ d ∈ datas, d ≠ [] ∧ d.length ≤ per := by
  refine ⟨(List.range (numChunks value.length per)).map (chunkData value per), ?_, ?_, ?_⟩
  · rw [sendChunked_eq]
    simp only [List.length_map, List.length_range]
    apply List.map_congr_left
    intro j hj
    rw [List.mem_range] at hj
    have h1 : ((List.range (numChunks value.length per)).map (chunkData value per)).getD j [] = chunkData value per j := by
      simp [List.getD, hj]
    rw [h1, ← List.map_take, List.take_range, Nat.min_eq_left (by omega), take_chunks]
    congr 1
    rw [List.length_take, Nat.min_eq_left]
    have := (lt_numChunks value.length per j hp).1 hj
    omega
  · rw [take_chunks, List.take_of_length_le]
    have : ¬ (numChunks value.length per < numChunks value.length per) := by omega
    rw [lt_numChunks _ _ _ hp] at this
    omega
  · intro d hd
    simp only [List.mem_map, List.mem_range] at hd
    obtain ⟨j, hj, rfl⟩ := hd
    rw [lt_numChunks _ _ _ hp] at hj
    constructor
    · intro he
      have := chunkData_length value per j
      rw [he] at this
      simp [chunkLen] at this
      omega
    · rw [chunkData_length]; unfold chunkLen; omega

example : sendChunked 2 [7] [1, 2, 3, 4, 5] =
    [.chunk [7] [1, 2] 0 5, .chunk [7] [3, 4] 2 5, .chunk [7] [5] 4 5] := by decide

/-! ### Reassembly -/

open Finset in
theorem sum_chunkLen (len per m : Nat) (hp : 0 < per) :
    ∑ j ∈ range m, chunkLen len per j = min (m * per) len := by
  induction m with
  | zero => simp
  | succ m ih =>
    rw [sum_range_succ, ih, Nat.add_mul]
    unfold chunkLen
    omega

/-- Reassembly state after the chunks with indices in `idxs` have been added (in any order, any number of times). -/
structure ChunkInv (value : Bytes) (per : Nat) (idxs : Finset Nat) (m : ChunkedMessage) : Prop where
  sub : ∀ j ∈ idxs, j < numChunks value.length per
  recv : ∀ o, o ∈ m.received ↔ ∃ j ∈ idxs, o = j * per
  len : m.buf.length = value.length
  cells : ∀ p (hp : p < value.length), m.buf[p]? = some (if p / per ∈ idxs then some value[p] else none)
  written : m.written = ∑ j ∈ idxs, chunkLen value.length per j

theorem chunkInv_new (value : Bytes) (per : Nat) : ChunkInv value per ∅ (ChunkedMessage.new value.length) := by
  constructor <;> simp [ChunkedMessage.new, List.getElem?_replicate]

theorem writeAt_length (buf : Value) (off : Nat) (data : Bytes) (h : off + data.length ≤ buf.length) :
    (writeAt buf off data).length = buf.length := by
  simp [writeAt]; omega

theorem writeAt_getElem? (buf : Value) (off : Nat) (data : Bytes) (h : off + data.length ≤ buf.length) (p : Nat) :
    (writeAt buf off data)[p]? =
      if p < off then buf[p]? else if p < off + data.length then (data[p - off]?).map some else buf[p]? := by
  unfold writeAt
  rw [List.getElem?_append, List.getElem?_append]
  simp only [List.length_append, List.length_take, List.length_map]
  have e : min off buf.length = off := by omega
  rw [e]
  split
  · rename_i h1
    split
    · rename_i h2; rw [List.getElem?_take, if_pos h2]
    · rename_i h2; rw [List.getElem?_map]
  · rename_i h1
    rw [List.getElem?_drop]
    rw [if_neg (by omega)]
    congr 1; omega

theorem div_eq_iff (p per j : Nat) (hp : 0 < per) : p / per = j ↔ j * per ≤ p ∧ p < j * per + per := by
  rw [Nat.div_eq_iff hp]
  constructor
  · rintro ⟨h1, h2⟩; constructor <;> omega
  · rintro ⟨h1, h2⟩; constructor <;> omega

theorem chunkInv_add (value : Bytes) (per : Nat) (hp : 0 < per) (idxs : Finset Nat) (m : ChunkedMessage)
    (h : ChunkInv value per idxs m) (j : Nat) (hj : j < numChunks value.length per) :
    ∃ m', m.addChunk (j * per) (chunkData value per j) = some m' ∧ ChunkInv value per (insert j idxs) m' := by
  have hjl := (lt_numChunks _ _ _ hp).1 hj
  unfold ChunkedMessage.addChunk
  by_cases hm : j * per ∈ m.received
  · refine ⟨m, by simp [hm], ?_⟩
    obtain ⟨k, hk, hkj⟩ := (h.recv _).1 hm
    have : j = k := Nat.eq_of_mul_eq_mul_right hp hkj
    subst this
    rwa [Finset.insert_eq_of_mem hk]
  · have hle : j * per + (chunkData value per j).length ≤ m.buf.length := by
      rw [chunkData_length, h.len]; unfold chunkLen; omega
    have hji : j ∉ idxs := fun hc => hm ((h.recv _).2 ⟨j, hc, rfl⟩)
    refine ⟨_, by rw [if_neg hm, if_pos hle], ?_⟩
    constructor
    · intro k hk
      rw [Finset.mem_insert] at hk
      rcases hk with rfl | hk
      · exact hj
      · exact h.sub k hk
    · intro o
      simp only [List.mem_cons, h.recv, Finset.mem_insert, exists_eq_or_imp]
    · rw [writeAt_length _ _ _ hle, h.len]
    · intro p hpl
      simp only [writeAt_getElem? _ _ _ hle]
      have hd := div_eq_iff p per j hp
      simp only [Finset.mem_insert]
      rw [chunkData_length]
      by_cases h1 : p < j * per
      · rw [if_pos h1, h.cells p hpl]
        have : p / per ≠ j := by intro hc; have := hd.1 hc; omega
        simp [this]
      · by_cases h2 : p < j * per + chunkLen value.length per j
        · rw [if_neg h1, if_pos h2]
          have : p / per = j := hd.2 (by unfold chunkLen at h2; omega)
          simp only [this, true_or, if_true]
          unfold chunkData
          rw [List.getElem?_take, if_pos (by omega), List.getElem?_drop]
          have e : j * per + (p - j * per) = p := by omega
          rw [e, List.getElem?_eq_getElem hpl]
          rfl
        · rw [if_neg h1, if_neg h2, h.cells p hpl]
          have : p / per ≠ j := by
            intro hc
            have := hd.1 hc
            unfold chunkLen at h2
            omega
          simp [this]
    · simp only [h.written, chunkData_length]
      rw [Finset.sum_insert hji, Nat.add_comm]

theorem chunkInv_full_iff (value : Bytes) (per : Nat) (hp : 0 < per) (idxs : Finset Nat) (m : ChunkedMessage)
    (h : ChunkInv value per idxs m) :
    m.isFullyFilled = true ↔ ∀ j < numChunks value.length per, j ∈ idxs := by
  unfold ChunkedMessage.isFullyFilled
  rw [decide_eq_true_eq, h.written, h.len]
  have hall : ∑ j ∈ Finset.range (numChunks value.length per), chunkLen value.length per j = value.length := by
    rw [sum_chunkLen _ _ _ hp]
    have : ¬ (numChunks value.length per < numChunks value.length per) := by omega
    rw [lt_numChunks _ _ _ hp] at this
    omega
  have hsub : idxs ⊆ Finset.range (numChunks value.length per) := fun j hj => Finset.mem_range.2 (h.sub j hj)
  constructor
  · intro he j hj
    by_contra hc
    have hlt : ∑ j ∈ idxs, chunkLen value.length per j <
        ∑ j ∈ Finset.range (numChunks value.length per), chunkLen value.length per j := by
      apply Finset.sum_lt_sum_of_subset hsub (Finset.mem_range.2 hj) hc
      · have := (lt_numChunks _ _ _ hp).1 hj
        unfold chunkLen; omega
      · intros; omega
    omega
  · intro hj
    have : idxs = Finset.range (numChunks value.length per) :=
      Finset.Subset.antisymm hsub (fun j hjj => hj j (Finset.mem_range.1 hjj))
    rw [this, hall]

theorem chunkInv_buf (value : Bytes) (per : Nat) (hp : 0 < per) (idxs : Finset Nat) (m : ChunkedMessage)
    (h : ChunkInv value per idxs m) (hall : ∀ j < numChunks value.length per, j ∈ idxs) :
    m.buf = value.map some := by
  apply List.ext_getElem?
  intro p
  by_cases hpl : p < value.length
  · rw [h.cells p hpl, if_pos]
    · simp [hpl]
    · apply hall
      rw [lt_numChunks _ _ _ hp]
      have := (div_eq_iff p per _ hp).1 rfl
      omega
  · rw [List.getElem?_eq_none (by rw [h.len]; omega), List.getElem?_eq_none (by simp; omega)]

/-- Feed the chunks with the given indices to a reassembly buffer, in order; `none` = out-of-bounds write. -/
def feed (value : Bytes) (per : Nat) : List Nat → ChunkedMessage → Option ChunkedMessage
  | [], m => some m
  | j :: js, m => (m.addChunk (j * per) (chunkData value per j)).bind (feed value per js)

theorem feed_inv (value : Bytes) (per : Nat) (hp : 0 < per) (order : List Nat) : ∀ (idxs : Finset Nat) (m : ChunkedMessage),
    ChunkInv value per idxs m → (∀ j ∈ order, j < numChunks value.length per) →
    ∃ m', feed value per order m = some m' ∧ ChunkInv value per (order.toFinset ∪ idxs) m' := by
  induction order with
  | nil => intro idxs m h _; exact ⟨m, rfl, by simpa using h⟩
  | cons j js ih =>
    intro idxs m h hb
    obtain ⟨m1, h1, h2⟩ := chunkInv_add value per hp idxs m h j (hb j (by simp))
    obtain ⟨m', h3, h4⟩ := ih _ m1 h2 (fun k hk => hb k (by simp [hk]))
    refine ⟨m', by simp [feed, h1, h3], ?_⟩
    have e : (j :: js).toFinset ∪ idxs = js.toFinset ∪ insert j idxs := by
      ext x; simp only [List.toFinset_cons, Finset.mem_union, Finset.mem_insert]
      constructor
      · rintro ((h | h) | h) <;> simp [h]
      · rintro (h | h | h) <;> simp [h]
    rwa [e]

/-- **C05.** Whatever the arrival order and duplication of (some of) the chunks `SendChunked` produces for a message,
reassembly never writes out of bounds; it reports completion exactly when every chunk has arrived at least once; and then
the buffer is byte for byte the message sent (no uninitialised byte left). -/
theorem C05_reassembly_exact (per : Nat) (value : Bytes) (hp : 0 < per) (order : List Nat)
    (ho : ∀ j ∈ order, j < numChunks value.length per) :
    ∃ m, feed value per order (ChunkedMessage.new value.length) = some m ∧
      (m.isFullyFilled = true ↔ ∀ j < numChunks value.length per, j ∈ order) ∧
      (m.isFullyFilled = true → m.buf = value.map some) := by
  obtain ⟨m, h1, h2⟩ := feed_inv value per hp order ∅ _ (chunkInv_new value per) ho
  rw [Finset.union_empty] at h2
  have hf := chunkInv_full_iff value per hp _ m h2
  simp only [List.mem_toFinset] at hf
  refine ⟨m, h1, hf, fun hfull => chunkInv_buf value per hp _ m h2 ?_⟩
  simpa using hf.1 hfull

/-- Non-vacuity: five bytes in chunks of two arriving as 2,0,2,1. -/
example : (∀ j ∈ [2, 0, 2, 1], j < numChunks [1, 2, 3, 4, 5].length 2) ∧
    (feed [1, 2, 3, 4, 5] 2 [2, 0, 2, 1] (ChunkedMessage.new 5)).map (·.buf) =
      some [some 1, some 2, some 3, some 4, some 5] := by decide

/-! ### C07: hostile chunk requests -/

/-- **C07, violated.** Two chunk requests with inconsistent total lengths make the receiver write outside the reassembly
buffer: the second request is checked against its own total (100), not against the buffer allocated for the first (4). -/
theorem C07_inconsistent_total_out_of_bounds_violated :
    let st1 := (onRequest State.init (.chunk [97] [1, 2] 0 4)).1
    (onRequest State.init (.chunk [97] [1, 2] 0 4)).2 = .ok ∧
    (onRequest st1 (.chunk [97] [1, 2] 50 100)).2 = .ub := by decide

/-- **C07, violated (second way).** The bounds check adds two `size_t`s: an offset near `2^64` wraps around, passes the
check and is then used as a write offset. -/
theorem C07_offset_wraps_out_of_bounds_violated :
    (onRequest State.init (.chunk [97] [1, 2] (2 ^ 64 - 1) 4)).2 = .ub := by decide

/-- Related: overlapping chunks of a consistent total are accepted as a complete message that contains never-written
(uninitialised) bytes: completion is decided by the number of bytes copied. -/
theorem C07_overlapping_chunks_leak_uninitialised :
    let st1 := (onRequest State.init (.chunk [97] [1, 2, 3] 0 6)).1
    let st2 := (onRequest st1 (.chunk [97] [4, 5, 6] 1 6)).1
    (recv st2 [97]).2 = .value [some 1, some 4, some 5, some 6, none, none] := by decide

/-- Every stored reassembly buffer for `key` has the length announced by `total`. -/
def TotalsAgree (total : Bytes → Nat) (st : State) : Prop :=
  ∀ e ∈ st.chunked, e.2.buf.length = total e.1

theorem lookup_mem {α} (k : Bytes) (l : List (Bytes × α)) (v : α) (h : lookup k l = some v) : (k, v) ∈ l := by
  induction l with
  | nil => simp [lookup] at h
  | cons a r ih =>
    obtain ⟨k', v'⟩ := a
    simp only [lookup] at h
    split at h
    · rename_i he; simp at h; simp [he, h]
    · simp [ih h]

theorem storeMessage_chunked (st : State) (k : Bytes) (v : Value) (s : Nat) :
    (storeMessage st k v s).1.chunked = st.chunked ∧ (storeMessage st k v s).2 ≠ .ub := by
  unfold storeMessage
  split
  · split
    · simp
    · split <;> simp
  · unfold sendAck; split <;> simp

theorem onNormalMessage_chunked (st : State) (k : Bytes) (v : Value) :
    (onNormalMessage st k v).1.chunked = st.chunked ∧ (onNormalMessage st k v).2 ≠ .ub := by
  unfold onNormalMessage
  split
  · simp
  · split
    · split
      · simp
      · exact storeMessage_chunked _ _ _ _
    · exact storeMessage_chunked _ _ _ _

theorem onMessage_chunked (st : State) (k : Bytes) (v : Value) :
    (onMessage st k v).1.chunked = st.chunked ∧ (onMessage st k v).2 ≠ .ub := by
  unfold onMessage
  split
  · split <;> simp
  · split
    · split
      · simp
      · split <;> simp
    · exact onNormalMessage_chunked _ _ _

theorem addChunk_length (m m' : ChunkedMessage) (o : Nat) (d : Bytes) (h : m.addChunk o d = some m') :
    m'.buf.length = m.buf.length := by
  unfold ChunkedMessage.addChunk at h
  split at h
  · simp at h; rw [h]
  · split at h
    · rename_i hle
      simp at h; rw [← h]; exact writeAt_length _ _ _ hle
    · simp at h

theorem foldl_sendAck_chunked (l : List (Bytes × (Value × Nat))) (st : State) :
    (l.foldl (fun s e => sendAck s e.2.2) st).chunked = st.chunked := by
  induction l generalizing st with
  | nil => rfl
  | cons a r ih => simp only [List.foldl_cons]; rw [ih]; unfold sendAck; split <;> rfl

theorem step_totals (total : Bytes → Nat) (st : State) (e : Event) (h : TotalsAgree total st)
    (he : ∀ k d o t, e = .request (.chunk k d o t) → t = total k ∧ o + d.length < 2 ^ 64) :
    TotalsAgree total (step st e).1 ∧ (step st e).2 ≠ .ub := by
  cases e with
  | stop =>
    simp only [step, stopReceiving, TotalsAgree, foldl_sendAck_chunked]
    exact ⟨h, by simp⟩
  | recv k =>
    simp only [step, recv]
    split
    · exact ⟨h, by simp⟩
    · split
      · exact ⟨h, by simp⟩
      · unfold sendAck; split <;> exact ⟨h, by simp⟩
  | request r =>
    cases r with
    | mono k v =>
      simp only [step, onRequest]
      have := onMessage_chunked st k (v.map some)
      exact ⟨by unfold TotalsAgree; rw [this.1]; exact h, this.2⟩
    | chunk k d o t =>
      obtain ⟨ht, hw⟩ := he k d o t rfl
      simp only [step, onRequest, onChunked]
      split
      · exact ⟨h, by simp⟩
      · rename_i hb
        rw [Nat.mod_eq_of_lt hw] at hb
        have hlen : ((lookup k st.chunked).getD (ChunkedMessage.new t)).buf.length = t := by
          cases hl : lookup k st.chunked with
          | none => simp [ChunkedMessage.new]
          | some m => simpa [ht] using h _ (lookup_mem _ _ _ hl)
        generalize (lookup k st.chunked).getD (ChunkedMessage.new t) = m at *
        have hadd : ∃ m', m.addChunk o d = some m' := by
          unfold ChunkedMessage.addChunk
          split
          · exact ⟨_, rfl⟩
          · rw [if_pos (by omega)]; exact ⟨_, rfl⟩
        obtain ⟨m', hm'⟩ := hadd
        rw [hm']
        simp only
        have herase : ∀ x ∈ erase k st.chunked, x.2.buf.length = total x.1 := by
          intro x hx; exact h x (List.mem_filter.1 hx).1
        split
        · have := onMessage_chunked { st with chunked := erase k st.chunked } k m'.buf
          exact ⟨by unfold TotalsAgree; rw [this.1]; exact herase, this.2⟩
        · refine ⟨?_, by simp⟩
          intro x hx
          simp only [upsert, List.mem_cons] at hx
          rcases hx with rfl | hx
          · simp only; rw [addChunk_length _ _ _ _ hm', hlen, ht]
          · exact herase x hx

/-- **C07, what holds.** If all chunk requests of one key announce the same total length and no `offset + size` overflows
`size_t`, then no history of requests, receives and shutdown steps writes out of bounds. Missing for the full property: the
two violated cases above. -/
theorem C07_no_out_of_bounds_partial (total : Bytes → Nat) (es : List Event)
    (he : ∀ k d o t, Event.request (.chunk k d o t) ∈ es → t = total k ∧ o + d.length < 2 ^ 64) :
    ∀ x ∈ (runEvents State.init es).2, x.2 ≠ .ub := by
  have key : ∀ (es : List Event) (st : State), TotalsAgree total st →
      (∀ k d o t, Event.request (.chunk k d o t) ∈ es → t = total k ∧ o + d.length < 2 ^ 64) →
      ∀ x ∈ (runEvents st es).2, x.2 ≠ .ub := by
    intro es
    induction es with
    | nil => intro st _ _ x hx; simp [runEvents] at hx
    | cons e es ih =>
      intro st h he x hx
      have hs := step_totals total st e h (fun k d o t hh => he k d o t (by simp [hh]))
      simp only [runEvents, List.mem_cons] at hx
      rcases hx with rfl | hx
      · exact hs.2
      · exact ih _ hs.1 (fun k d o t hh => he k d o t (by simp [hh])) x hx
  exact key es _ (by simp [TotalsAgree, State.init]) he

example : ∀ k d o t, Event.request (.chunk k d o t) ∈
    [Event.request (.chunk [97] [1, 2] 2 4), .request (.chunk [97] [3, 4] 0 4), .recv [97]] →
    t = (fun _ => 4) k ∧ o + d.length < 2 ^ 64 := by
  intro k d o t h
  simp at h
  rcases h with ⟨_, rfl, rfl, rfl⟩ | ⟨_, rfl, rfl, rfl⟩ <;> simp

end Yacl.Channel
