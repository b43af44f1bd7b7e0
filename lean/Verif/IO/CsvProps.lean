import Verif.IO.CsvLemmas

/-! Properties C33 (round trip) and C34 (seek). -/
namespace Yacl.Csv
variable {F D : Type}

/-! ### What Init establishes -/

theorem parseHeader_spec (done l hs : List Bytes) :
    parseHeader done l = some hs ↔
      hs = done ++ l.map strip ∧ (∀ n ∈ l.map strip, n ≠ []) ∧ (∀ n ∈ l.map strip, n ∉ done) ∧ (l.map strip).Nodup := by
  induction l generalizing done with
  | nil => simp [parseHeader, eq_comm]
  | cons a l ih =>
    simp only [parseHeader, List.map_cons]
    by_cases h1 : strip a = []
    · simp [h1]
    · by_cases h2 : strip a ∈ done
      · simp only [h1, h2, if_false, if_true, reduceCtorEq, false_iff, not_and]
        intro _ _ h; exact absurd h2 (h (strip a) (by simp))
      · simp only [h1, h2, if_false]
        rw [ih]
        simp only [List.append_assoc, List.singleton_append, List.nodup_cons, List.mem_append, List.mem_singleton,
          not_or, List.forall_mem_cons, List.not_mem_nil, or_false]
        constructor
        · rintro ⟨e1, e2, e3, e4⟩
          exact ⟨e1, ⟨h1, e2⟩, ⟨h2, fun n hn => (e3 n hn).1⟩, fun hm => (e3 _ hm).2 rfl, e4⟩
        · rintro ⟨e1, ⟨_, e2⟩, ⟨_, e3⟩, e4, e5⟩
          exact ⟨e1, e2, fun n hn => ⟨e3 n hn, fun e => e4 (e ▸ hn)⟩, e5⟩

/-- `sel` lists, feature by feature, the position of the feature's name in the header and its requested type. -/
def Selects (headers : List Bytes) (schema : Schema) (sel : List (Nat × Ty)) : Prop :=
  List.Forall₂ (fun (f : Bytes × Ty) (s : Nat × Ty) => headers[s.1]? = some f.1 ∧ s.2 = f.2) schema sel

theorem selectFeatures_spec {hs : List Bytes} {schema : Schema} {sel : List (Nat × Ty)}
    (h : selectFeatures hs schema = some sel) : Selects hs schema sel := by
  induction schema generalizing sel with
  | nil => simp [selectFeatures] at h; subst h; exact .nil
  | cons f schema ih =>
    obtain ⟨n, t⟩ := f
    simp only [selectFeatures] at h
    split at h
    · rename_i hm
      simp only [Option.map_eq_some_iff] at h
      obtain ⟨s, hs', rfl⟩ := h
      refine .cons ⟨?_, rfl⟩ (ih hs')
      rw [List.getElem?_eq_getElem (List.idxOf_lt_length_of_mem hm)]
      exact congrArg some (List.getElem_idxOf (List.idxOf_lt_length_of_mem hm))
    · simp at h

theorem selectFeatures_isSome (hs : List Bytes) (schema : Schema) (h : ∀ f ∈ schema, f.1 ∈ hs) :
    ∃ sel, selectFeatures hs schema = some sel := by
  induction schema with
  | nil => exact ⟨[], rfl⟩
  | cons f schema ih =>
    obtain ⟨sel, e⟩ := ih (fun f hf => h f (by simp [hf]))
    exact ⟨(hs.idxOf f.1, f.2) :: sel, by simp [selectFeatures, h f (by simp), e]⟩

theorem insertSel_perm (x : Nat × Ty) (l : List (Nat × Ty)) : (insertSel x l).Perm (x :: l) := by
  induction l with
  | nil => exact .refl _
  | cons y l ih =>
    simp only [insertSel]
    split
    · exact .refl _
    · exact (List.Perm.cons y ih).trans (List.Perm.swap x y l)

theorem sortSel_perm (l : List (Nat × Ty)) : (sortSel l).Perm l := by
  induction l with
  | nil => exact .refl _
  | cons x l ih => exact (insertSel_perm x (sortSel l)).trans (List.Perm.cons x ih)

theorem insertSel_sorted (x : Nat × Ty) (l : List (Nat × Ty)) (h : l.Pairwise (fun a b => a.1 ≤ b.1)) :
    (insertSel x l).Pairwise (fun a b => a.1 ≤ b.1) := by
  induction l with
  | nil => simp [insertSel]
  | cons y l ih =>
    rw [List.pairwise_cons] at h
    simp only [insertSel]
    split
    · rename_i hxy
      rw [List.pairwise_cons, List.pairwise_cons]
      refine ⟨?_, h.1, h.2⟩
      intro b hb
      simp only [List.mem_cons] at hb
      rcases hb with rfl | hb
      · exact hxy
      · exact Nat.le_trans hxy (h.1 b hb)
    · rename_i hxy
      rw [List.pairwise_cons]
      refine ⟨?_, ih h.2⟩
      intro b hb
      have := (insertSel_perm x l).mem_iff.mp hb
      simp only [List.mem_cons] at this
      rcases this with rfl | hb
      · omega
      · exact h.1 b hb

theorem sortSel_sorted (l : List (Nat × Ty)) : (sortSel l).Pairwise (fun a b => a.1 ≤ b.1) := by
  induction l with
  | nil => simp [sortSel]
  | cons x l ih => exact insertSel_sorted x _ ih

/-- **C33 (header).** A reader that opens has taken its header from the first line: names stripped of surrounding white space,
none empty, no two equal; and the selected columns are those of the requested features, in the requested order, or ascending
by file position if `use_header_order` is set. -/
theorem C33_header (fd ld : Byte) (bs : Nat) (schema : Schema) (uho cl : Bool) (data : Bytes) (r : Reader)
    (h : openReader fd ld bs schema uho cl data = .ok r) :
    (∃ hd, (lines ld data).head? = some hd ∧ r.headers = (strSplit fd hd).map strip) ∧
    (∀ n ∈ r.headers, n ≠ []) ∧ r.headers.Nodup ∧
    (uho = false → Selects r.headers schema r.sel) ∧
    (uho = true → (∃ sel, Selects r.headers schema sel ∧ r.sel.Perm sel) ∧ r.sel.Pairwise (fun a b => a.1 ≤ b.1)) ∧
    r.cur = 0 ∧ (cl = true → r.total = some (dataLines ld data).length) := by
  obtain ⟨hd, R, hs, sel, hL, hp, hsel, hcl⟩ := open_inv fd ld bs schema uho cl data r h
  obtain ⟨r', e, _, e2, e3, e4, e5, e6, e7, e8⟩ := open_ok fd ld bs schema uho cl data hd R hs sel hL hp hsel hcl
  rw [h] at e
  cases e
  obtain ⟨q1, q2, q3, q4⟩ := (parseHeader_spec [] (strSplit fd hd) hs).mp hp
  simp only [List.nil_append] at q1
  rw [e6, e7]
  refine ⟨⟨hd, by rw [hL]; rfl, q1⟩, by rw [q1]; exact q2, by rw [q1]; exact q4, ?_, ?_, e2, ?_⟩
  · rintro rfl; exact selectFeatures_spec hsel
  · rintro rfl
    exact ⟨⟨sel, selectFeatures_spec hsel, sortSel_perm sel⟩, sortSel_sorted sel⟩
  · intro hc; rw [e8 hc, dataLines, hL]; rfl

/-! ### C34 -/

theorem inv_of_open {fd ld : Byte} {bs : Nat} {schema : Schema} {uho cl : Bool} {data : Bytes} {r : Reader}
    (h : openReader fd ld bs schema uho cl data = .ok r) :
    Inv data (dataLines ld data) r ∧ r.fd = fd ∧ r.ld = ld ∧ r.cur = 0 := by
  obtain ⟨hd, R, hs, sel, hL, hp, hsel, hcl⟩ := open_inv fd ld bs schema uho cl data r h
  obtain ⟨r', e, e1, e2, e3, e4, e5, e6, e7, e8⟩ := open_ok fd ld bs schema uho cl data hd R hs sel hL hp hsel hcl
  rw [h] at e
  cases e
  refine ⟨?_, e3, e4, e2⟩
  rw [dataLines, hL]; exact e1

theorem spawn_inv {data : Bytes} {R : List Bytes} {r : Reader} (h : Inv data R r) : Inv data R r.spawn :=
  ⟨⟨h.inp.data_eq, h.inp.pos_le, h.inp.rest, by simp [Reader.spawn, Stream.spawn, Stream.seekg],
    by simp [Reader.spawn, Stream.spawn, Stream.seekg]⟩, h.cur_le, h.tot, h.map_ok, h.map_zero⟩

theorem step_inv {cd : Codec F D} {data : Bytes} {R : List Bytes} {r : Reader} (h : Inv data R r)
    (hrow : ∀ line ∈ R, RowOk cd r.fd r.headers.length r.sel line) (c : Call) :
    Inv data R (r.step cd c) ∧ Same r (r.step cd c) := by
  cases c with
  | next =>
    obtain ⟨b, _, _, _, h1, h2, _⟩ := nextRow_spec h hrow r.batchSize
    exact ⟨h1, h2⟩
  | nextN k =>
    simp only [Reader.step, Reader.nextN]
    split
    · exact ⟨h, Same.refl r⟩
    · obtain ⟨b, _, _, _, h1, h2, _⟩ := nextRow_spec h hrow k
      exact ⟨h1, h2⟩
  | seek i =>
    obtain ⟨s1, s2, _⟩ := seek_spec h i
    exact ⟨s1, s2⟩
  | spawn => exact ⟨spawn_inv h, ⟨rfl, rfl, rfl, rfl, rfl⟩⟩

theorem run_inv {cd : Codec F D} {data : Bytes} {R : List Bytes} {r : Reader} (h : Inv data R r)
    (hrow : ∀ line ∈ R, RowOk cd r.fd r.headers.length r.sel line) (l : List Call) :
    Inv data R (r.run cd l) ∧ Same r (r.run cd l) := by
  induction l generalizing r with
  | nil => exact ⟨h, Same.refl r⟩
  | cons c l ih =>
    obtain ⟨h1, h2⟩ := step_inv h hrow c
    obtain ⟨h3, h4⟩ := ih h1 (by rw [h2.fd, h2.hs, h2.sel]; exact hrow)
    exact ⟨h3, h2.trans h4⟩

/-- **C34, partial.** On a file whose rows are all well formed, after any history of reads, seeks and spawns (whether the calls
returned or threw), `Seek(i)` to an existing row succeeds, `Tell()` is then `i`, and the next read of up to `k` rows returns
exactly rows `i, i+1, ...`. Missing: files with malformed rows, see `C34_after_bad_row_violated`. -/
theorem C34_seek_then_read_partial (cd : Codec F D) (fd ld : Byte) (bs : Nat) (schema : Schema) (uho cl : Bool) (data : Bytes)
    (r : Reader) (hopen : openReader fd ld bs schema uho cl data = .ok r)
    (hrow : ∀ line ∈ dataLines ld data, RowOk cd fd r.headers.length r.sel line)
    (history : List Call) (i : Nat) (hi : i < (dataLines ld data).length) :
    ∃ r', (r.run cd history).seek i = (r', .ok ()) ∧ r'.cur = i ∧
      ∀ k, 0 < k → ∃ b, (r'.nextN cd k).2 = .ok (true, b) ∧ IsBatch cd fd r.sel (((dataLines ld data).drop i).take k) b := by
  obtain ⟨h1, h2, h3, h4⟩ := inv_of_open hopen
  obtain ⟨h5, h6⟩ := run_inv h1 (by rw [h2]; exact hrow) history
  obtain ⟨s1, s2, s3, _⟩ := seek_spec h5 i
  obtain ⟨s3, s4⟩ := s3 hi
  refine ⟨((r.run cd history).seek i).1, Prod.ext rfl s3, s4, ?_⟩
  intro k hk
  have hsame := h6.trans s2
  obtain ⟨b, n1, n2, n3, _⟩ := nextRow_spec (cd := cd) s1 (by rw [hsame.fd, hsame.hs, hsame.sel, h2]; exact hrow) k
  have hne : ((List.drop i (dataLines ld data)).take k).length ≠ 0 := by
    rw [List.length_take, List.length_drop]; omega
  rw [s4] at n1 n2
  refine ⟨b, ?_, ?_⟩
  · unfold Reader.nextN
    rw [if_neg (by omega), n1]
    simp only [ne_eq, hne, not_false_eq_true, decide_true]
  · have := n2 hne
    rw [hsame.fd, hsame.sel, h2] at this
    exact this

/-- **C34 (sequential reads), partial.** In every reachable state a read of up to `k` rows returns the rows from `Tell()` on (it
returns false exactly when there are none left) and moves `Tell()` past them; nothing throws. `Rows()` is
unknown or right. Missing as above. -/
theorem C34_sequential_partial (cd : Codec F D) (fd ld : Byte) (bs : Nat) (schema : Schema) (uho cl : Bool) (data : Bytes)
    (r : Reader) (hopen : openReader fd ld bs schema uho cl data = .ok r)
    (hrow : ∀ line ∈ dataLines ld data, RowOk cd fd r.headers.length r.sel line)
    (history : List Call) (k : Nat) (hk : 0 < k) :
    let s := r.run cd history
    let rows := ((dataLines ld data).drop s.cur).take k
    s.cur ≤ (dataLines ld data).length ∧
    (s.total = none ∨ s.total = some (dataLines ld data).length) ∧
    ∃ s' b, s.nextN cd k = (s', .ok (decide (rows.length ≠ 0), b)) ∧ b.rows = rows.length ∧
      (rows.length ≠ 0 → IsBatch cd fd r.sel rows b) ∧ s'.cur = s.cur + rows.length := by
  obtain ⟨h1, h2, h3, h4⟩ := inv_of_open hopen
  obtain ⟨h5, h6⟩ := run_inv h1 (by rw [h2]; exact hrow) history
  obtain ⟨b, n1, n2, n3, n4, n5, n6, n7⟩ := nextRow_spec (cd := cd) h5 (by rw [h6.fd, h6.hs, h6.sel, h2]; exact hrow) k
  refine ⟨h5.cur_le, h5.tot, _, b, Prod.ext rfl ?_, n3, ?_, ?_⟩
  · unfold Reader.nextN; rw [if_neg (by omega), n1]
  · intro hne; have := n2 hne; rw [h6.fd, h6.sel, h2] at this; exact this
  · unfold Reader.nextN; rw [if_neg (by omega), n6, List.length_take, List.length_drop]
    have := h5.cur_le; omega

/-- Seeking past the end never succeeds. -/
theorem C34_seek_past_end (cd : Codec F D) (fd ld : Byte) (bs : Nat) (schema : Schema) (uho cl : Bool) (data : Bytes)
    (r : Reader) (hopen : openReader fd ld bs schema uho cl data = .ok r)
    (hrow : ∀ line ∈ dataLines ld data, RowOk cd fd r.headers.length r.sel line)
    (history : List Call) (i : Nat) (hi : (dataLines ld data).length < i) :
    ((r.run cd history).seek i).2 = .throw := by
  obtain ⟨h1, h2, h3, h4⟩ := inv_of_open hopen
  obtain ⟨h5, h6⟩ := run_inv h1 (by rw [h2]; exact hrow) history
  exact (seek_spec h5 i).2.2.2.1 hi

/-- A spawned reader stands where the original stands: its reads return the same batches. -/
theorem C34_spawn (cd : Codec F D) (fd ld : Byte) (bs : Nat) (schema : Schema) (uho cl : Bool) (data : Bytes)
    (r : Reader) (hopen : openReader fd ld bs schema uho cl data = .ok r)
    (hrow : ∀ line ∈ dataLines ld data, RowOk cd fd r.headers.length r.sel line) (history : List Call) :
    (r.run cd history).spawn.cur = (r.run cd history).cur ∧
    ∀ k, 0 < k → ∃ v b b', ((r.run cd history).nextN cd k).2 = .ok (v, b) ∧ ((r.run cd history).spawn.nextN cd k).2 = .ok (v, b') ∧
      (v = true → ∃ rows, IsBatch cd fd r.sel rows b ∧ IsBatch cd fd r.sel rows b') := by
  refine ⟨rfl, fun k hk => ?_⟩
  obtain ⟨_, _, s', b, e1, e2, e3, e4⟩ := C34_sequential_partial cd fd ld bs schema uho cl data r hopen hrow history k hk
  obtain ⟨_, _, s'', b', f1, f2, f3, f4⟩ :=
    C34_sequential_partial cd fd ld bs schema uho cl data r hopen hrow (history ++ [.spawn]) k hk
  have hr : r.run cd (history ++ [.spawn]) = (r.run cd history).spawn := by simp [Reader.run, Reader.step]
  simp only [hr] at f1 f2 f3 f4
  have hc : (r.run cd history).spawn.cur = (r.run cd history).cur := rfl
  rw [hc] at f1 f2 f3 f4
  refine ⟨_, b, b', by rw [e1], by rw [f1], ?_⟩
  intro hv
  simp only [decide_eq_true_eq] at hv
  exact ⟨_, e3 hv, f3 hv⟩

/-! A concrete file and reader: header `a,b`, rows `1,2`, `3,4`, `5,6`, the last one not terminated. -/

def demoCodec : Codec Unit Unit := ⟨fun _ => [48], fun _ => [48], fun s => if s = [48] then some () else none, fun _ => none⟩
def demoData : Bytes := [97, 44, 98, 10, 49, 44, 50, 10, 51, 44, 52, 10, 53, 44, 54]
def demoSchema : Schema := [([98], .str), ([97], .str)]

instance (cd : Codec F D) (fd : Byte) (i : Nat) (line : Bytes) : Decidable (∃ v, ReadAs cd fd i .str line v) :=
  if h : i < (strSplit fd line).length then isTrue ⟨_, _, List.getElem?_eq_getElem h, rfl⟩
  else isFalse (by rintro ⟨v, f, hf, _⟩; rw [List.getElem?_eq_none (by omega)] at hf; simp at hf)

example : (openReader 44 10 2 demoSchema false true demoData) = .ok
    ⟨44, 10, 2, ⟨demoData, 4, false, false⟩, [[97], [98]], [(1, .str), (0, .str)], 0, some 3, [(0, 4), (2, 12)]⟩ := by decide +kernel
example : dataLines 10 demoData = [[49, 44, 50], [51, 44, 52], [53, 44, 54]] := by decide
example : ∀ line ∈ dataLines 10 demoData, RowOk demoCodec 44 2 [(1, .str), (0, .str)] line := by
  intro line hl
  have : line = [49, 44, 50] ∨ line = [51, 44, 52] ∨ line = [53, 44, 54] := by
    simpa [show dataLines 10 demoData = [[49, 44, 50], [51, 44, 52], [53, 44, 54]] by decide] using hl
  rcases this with rfl | rfl | rfl <;> refine ⟨by decide, ?_⟩ <;> intro s hs <;>
    simp only [List.mem_cons, List.not_mem_nil, or_false] at hs <;> rcases hs with rfl | rfl <;>
    simp only <;> refine ⟨_, _, rfl, rfl⟩

/-- **C34 is violated after a malformed row**: header `a`, rows `x,y` (one field too many), `c`. The first read throws but has
consumed the bad line without counting it; the next read returns row 1 as if it were row 0 and records a wrong file position,
after which `Seek(1)` "succeeds" and the read that follows finds no row although row 1 exists. -/
theorem C34_after_bad_row_violated :
    ∃ (r : Reader), openReader 44 10 1 [([97], .str)] false false [97, 10, 120, 44, 121, 10, 99, 10] = .ok r ∧
      dataLines 10 [97, 10, 120, 44, 121, 10, 99, 10] = [[120, 44, 121], [99]] ∧
      (r.nextN demoCodec 1).2 = .throw ∧
      ((r.run demoCodec [.nextN 1]).nextN demoCodec 1).2 = .ok (true, ⟨1, [[.str [99]]]⟩) ∧
      ((r.run demoCodec [.nextN 1, .nextN 1]).seek 1).2 = .ok () ∧
      ((r.run demoCodec [.nextN 1, .nextN 1, .seek 1]).nextN demoCodec 1).2 = .ok (false, ⟨0, [[]]⟩) := by
  refine ⟨⟨44, 10, 1, ⟨[97, 10, 120, 44, 121, 10, 99, 10], 2, false, false⟩, [[97]], [(0, .str)], 0, none, [(0, 2)]⟩, ?_⟩
  decide +kernel

/-- A file with a header and no rows can be opened, but not with `row_reader_count_lines`: `Init` then throws on its own
`Seek(0)`. -/
theorem C34_count_lines_empty_violated :
    (∃ r, openReader 44 10 1 [([97], .str)] false false [97, 10] = .ok r) ∧
    openReader 44 10 1 [([97], .str)] false true [97, 10] = .throw := by
  refine ⟨⟨⟨44, 10, 1, ⟨[97, 10], 2, false, false⟩, [[97]], [(0, .str)], 0, none, [(0, 2)]⟩, by decide +kernel⟩, by decide +kernel⟩

end Yacl.Csv
