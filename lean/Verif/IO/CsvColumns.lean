import Verif.IO.CsvRoundTrip

/-! C33 for the column reader (`column_reader = true`). -/
namespace Yacl.Csv
variable {F D : Type}

/-! ### Lemmas -/

def encStr (x : Bytes) : Bytes := u32le x.length ++ x

theorem readU32_u32le (n : Nat) (h : n < 4294967296) (rest : Bytes) : readU32 (u32le n ++ rest) = n := by
  simp only [u32le, List.cons_append, readU32, UInt8.toNat_ofNat']
  omega

theorem decode_enc (xs : List Bytes) (h : ∀ x ∈ xs, x.length < 4294967296) (fuel : Nat) (hf : (xs.flatMap encStr).length ≤ fuel) :
    decodeStrs fuel (xs.flatMap encStr) = .ok xs := by
  induction xs generalizing fuel with
  | nil => cases fuel <;> simp [decodeStrs]
  | cons x xs ih =>
    have hlen : (u32le x.length).length = 4 := rfl
    cases fuel with
    | zero => simp [encStr, hlen] at hf
    | succ fuel =>
      have e : (x :: xs).flatMap encStr = u32le x.length ++ (x ++ xs.flatMap encStr) := by simp [encStr]
      rw [e] at hf ⊢
      simp only [List.length_append, hlen] at hf
      have hne : (u32le x.length ++ (x ++ xs.flatMap encStr)).isEmpty = false := rfl
      have hl4 : ¬ (u32le x.length ++ (x ++ xs.flatMap encStr)).length < 4 := by simp [hlen]
      simp only [decodeStrs, hne, Bool.false_eq_true, if_false, hl4, readU32_u32le _ (h x (by simp)), List.drop_left' hlen]
      have hl : ¬ (x ++ xs.flatMap encStr).length < x.length := by simp
      simp only [hl, if_false]
      rw [List.drop_left' rfl, ih (fun y hy => h y (by simp [hy])) fuel (by omega), List.take_left' rfl]

/-- A column file holds the values of column `s.1`, read as type `s.2`, of the lines `ls`. -/
def Holds (cd : Codec F D) (fd : Byte) (s : Nat × Ty) (ls : List Bytes) (f : ColFile F D) : Prop :=
  ∃ col, List.Forall₂ (fun line v => ReadAs cd fd s.1 s.2 line v) ls col ∧
    match s.2 with
    | .str => ∃ xs : List Bytes, col = xs.map .str ∧ f = .str (xs.flatMap encStr) ∧ ∀ x ∈ xs, x.length < 4294967296
    | .flt => ∃ xs, col = xs.map .flt ∧ f = .flt xs
    | .dbl => ∃ xs, col = xs.map .dbl ∧ f = .dbl xs

theorem holds_empty (cd : Codec F D) (fd : Byte) (s : Nat × Ty) : Holds cd fd s [] (emptyFile s.2) := by
  obtain ⟨i, t⟩ := s
  cases t
  · exact ⟨[], .nil, [], rfl, rfl, by simp⟩
  · exact ⟨[], .nil, [], rfl, rfl⟩
  · exact ⟨[], .nil, [], rfl, rfl⟩

theorem holds_push {cd : Codec F D} {fd : Byte} {s : Nat × Ty} {ls : List Bytes} {f : ColFile F D} {line x : Bytes} {v : Cell F D}
    (h : Holds cd fd s ls f) (hx : (strSplit fd line)[s.1]? = some x) (hv : parseCell cd s.2 x = some v)
    (hlen : x.length < 4294967296) : ∃ f', appendField cd f x = .ok f' ∧ Holds cd fd s (ls ++ [line]) f' := by
  obtain ⟨i, t⟩ := s
  obtain ⟨col, hcol, hm⟩ := h
  cases t
  · obtain ⟨xs, rfl, rfl, hxs⟩ := hm
    have hmod : x.length % 4294967296 = x.length := Nat.mod_eq_of_lt hlen
    refine ⟨_, rfl, xs.map .str ++ [.str x], forall₂_snoc hcol ⟨x, hx, rfl⟩, xs ++ [x], by simp, ?_, ?_⟩
    · simp [encStr, hmod]
    · intro y hy
      simp only [List.mem_append, List.mem_singleton] at hy
      rcases hy with hy | rfl
      · exact hxs y hy
      · exact hlen
  · obtain ⟨xs, rfl, rfl⟩ := hm
    simp only [parseCell, Option.map_eq_some_iff] at hv
    obtain ⟨w, hw, rfl⟩ := hv
    exact ⟨.flt (xs ++ [w]), by simp [appendField, hw], xs.map .flt ++ [.flt w], forall₂_snoc hcol ⟨x, hx, by simp [parseCell, hw]⟩, xs ++ [w],
      by simp, rfl⟩
  · obtain ⟨xs, rfl, rfl⟩ := hm
    simp only [parseCell, Option.map_eq_some_iff] at hv
    obtain ⟨w, hw, rfl⟩ := hv
    exact ⟨.dbl (xs ++ [w]), by simp [appendField, hw], xs.map .dbl ++ [.dbl w], forall₂_snoc hcol ⟨x, hx, by simp [parseCell, hw]⟩, xs ++ [w],
      by simp, rfl⟩

theorem appendFields_ok {cd : Codec F D} {fd : Byte} {sel : List (Nat × Ty)} {ls : List Bytes} {fs : List (ColFile F D)} {line : Bytes}
    (h : List.Forall₂ (fun s f => Holds cd fd s ls f) sel fs) (hv : ∀ s ∈ sel, ∃ v, ReadAs cd fd s.1 s.2 line v)
    (hlen : ∀ x ∈ strSplit fd line, x.length < 4294967296) :
    ∃ fs', appendFields cd (strSplit fd line) sel fs = .ok fs' ∧ List.Forall₂ (fun s f => Holds cd fd s (ls ++ [line]) f) sel fs' := by
  induction h with
  | nil => exact ⟨[], rfl, .nil⟩
  | cons h1 _ ih =>
    rename_i s f sel fs _
    obtain ⟨v, x, hx, hv1⟩ := hv s (by simp)
    obtain ⟨f', e1, e2⟩ := holds_push h1 hx hv1 (hlen x (List.mem_of_getElem? hx))
    obtain ⟨fs', e3, e4⟩ := ih (fun s hs => hv s (by simp [hs]))
    exact ⟨f' :: fs', by simp only [appendFields, hx, e1, e3], .cons e2 e4⟩

theorem buildLoop_ok {cd : Codec F D} {data : Bytes} (R pre : List Bytes) (fuel : Nat) (hf : R.length < fuel) (r : Reader)
    (hin : Ok r.ld data R r.input) (hrow : ∀ line ∈ R, RowOk cd r.fd r.headers.length r.sel line)
    (hlen : ∀ line ∈ R, ∀ x ∈ strSplit r.fd line, x.length < 4294967296)
    (fs : List (ColFile F D)) (hfs : List.Forall₂ (fun s f => Holds cd r.fd s pre f) r.sel fs) :
    ∃ fs', buildLoop cd fuel r pre.length fs = .ok (pre.length + R.length, fs') ∧
      List.Forall₂ (fun s f => Holds cd r.fd s (pre ++ R) f) r.sel fs' := by
  induction R generalizing pre fuel r fs with
  | nil =>
    cases fuel with
    | zero => simp at hf
    | succ fuel =>
      simp only [buildLoop, Reader.nextLine, (getLine_nil hin).1, Option.map_none]
      exact ⟨fs, by simp, by simpa using hfs⟩
  | cons line R ih =>
    cases fuel with
    | zero => simp at hf
    | succ fuel =>
      obtain ⟨h1, h2⟩ := getLine_cons hin
      obtain ⟨hw, hv⟩ := hrow line (by simp)
      obtain ⟨fs1, e1, e2⟩ := appendFields_ok hfs hv (hlen line (by simp))
      simp only [buildLoop, Reader.nextLine, h1, Option.map_some, hw, ne_eq, not_true_eq_false, if_false, e1]
      obtain ⟨fs', g1, g2⟩ := ih (pre ++ [line]) fuel (by simpa using hf) { r with input := (r.input.getLine r.ld).2 } h2
        (fun l hl => hrow l (by simp [hl])) (fun l hl => hlen l (by simp [hl])) fs1 e2
      refine ⟨fs', ?_, by simpa using g2⟩
      simp only [List.length_append, List.length_cons, List.length_nil] at g1
      rw [g1]; simp; omega

theorem decodeFile_ok {cd : Codec F D} {fd : Byte} {s : Nat × Ty} {ls : List Bytes} {f : ColFile F D} (h : Holds cd fd s ls f)
    (hne : ls ≠ []) : ∃ col, decodeFile ls.length f = .ok col ∧ fileEmpty f = false ∧
      List.Forall₂ (fun line v => ReadAs cd fd s.1 s.2 line v) ls col := by
  obtain ⟨i, t⟩ := s
  obtain ⟨col, hcol, hm⟩ := h
  have hl := hcol.length_eq
  cases t
  · obtain ⟨xs, rfl, rfl, hxs⟩ := hm
    simp only [List.length_map] at hl
    refine ⟨_, ?_, ?_, hcol⟩
    · simp only [decodeFile, decode_enc xs hxs _ (Nat.le_refl _), hl, if_true]
    · cases xs with
      | nil => simp at hl; exact absurd hl hne
      | cons x xs => simp [fileEmpty, encStr, u32le]
  · obtain ⟨xs, rfl, rfl⟩ := hm
    simp only [List.length_map] at hl
    refine ⟨_, by simp only [decodeFile, hl, if_true], ?_, hcol⟩
    cases xs with
    | nil => simp at hl; exact absurd hl hne
    | cons x xs => rfl
  · obtain ⟨xs, rfl, rfl⟩ := hm
    simp only [List.length_map] at hl
    refine ⟨_, by simp only [decodeFile, hl, if_true], ?_, hcol⟩
    cases xs with
    | nil => simp at hl; exact absurd hl hne
    | cons x xs => rfl

theorem nextLoop_ok {cd : Codec F D} {fd : Byte} {ls : List Bytes} (hne : ls ≠ []) (sel : List (Nat × Ty)) (n : Nat)
    (r : ColReader F D) (hfs : List.Forall₂ (fun s f => Holds cd fd s ls f) sel r.files) (htot : r.total = ls.length)
    (hcur : r.cur ≤ sel.length) (count : Nat) (b : Batch F D) (hb : b.rows = 0 ∨ b.rows = ls.length) :
    ∃ b', ColReader.nextLoop n r count b =
        ({ r with cur := min (r.cur + n) sel.length }, .ok (decide (count + ((sel.drop r.cur).take n).length ≠ 0), b')) ∧
      ∃ cols, b'.cols = b.cols ++ cols ∧ ColsOk cd fd ((sel.drop r.cur).take n) ls cols ∧
      (b'.rows = if cols = [] then b.rows else ls.length) := by
  induction n generalizing r count b with
  | zero =>
    refine ⟨b, ?_, [], by simp, by rw [List.take_zero]; exact .nil, by simp⟩
    have : min (r.cur + 0) sel.length = r.cur := by omega
    rw [this, List.take_zero]
    simp [ColReader.nextLoop, bne, Bool.beq_eq_decide_eq]
  | succ n ih =>
    by_cases hc : r.cur < sel.length
    · have hs : sel[r.cur]? = some sel[r.cur] := List.getElem?_eq_getElem hc
      obtain ⟨f, hf, hh⟩ := forall₂_get hfs r.cur hs
      obtain ⟨col, d1, d2, d3⟩ := decodeFile_ok hh hne
      have hlen := d3.length_eq
      have hap : b.appendCol col = .ok ⟨col.length, b.cols ++ [col]⟩ := by
        simp only [Batch.appendCol]; rw [if_pos (by rw [← hlen]; exact hb)]
      have hnc : r.nextCol b = ({ r with cur := r.cur + 1 }, .ok (true, ⟨col.length, b.cols ++ [col]⟩)) := by
        simp only [ColReader.nextCol, hf, d2, Bool.false_eq_true, if_false, htot, d1, hap]
      simp only [ColReader.nextLoop, hnc]
      obtain ⟨b', g1, cols, g2, g3, g4⟩ := ih { r with cur := r.cur + 1 } hfs htot hc (count + 1) ⟨col.length, b.cols ++ [col]⟩
        (Or.inr hlen.symm)
      have hdrop : sel.drop r.cur = sel[r.cur] :: sel.drop (r.cur + 1) := List.drop_eq_getElem_cons hc
      refine ⟨b', ?_, col :: cols, by rw [g2]; simp, ?_, ?_⟩
      · rw [g1]
        simp only [hdrop, List.take_succ_cons, List.length_cons]
        rw [show r.cur + 1 + n = r.cur + (n + 1) by omega]
        congr 3
        rw [decide_eq_decide]; omega
      · rw [hdrop, List.take_succ_cons]; exact .cons d3 g3
      · rw [g4]; simp [hlen]
    · have hcl : r.cur = sel.length := by omega
      have hf : r.files[r.cur]? = none := List.getElem?_eq_none (by rw [← hfs.length_eq]; omega)
      have hnc : r.nextCol b = (r, .ok (false, b)) := by simp only [ColReader.nextCol, hf]
      simp only [ColReader.nextLoop, hnc]
      refine ⟨b, ?_, [], by simp, ?_, by simp⟩
      · have : min (r.cur + (n + 1)) sel.length = r.cur := by omega
        rw [this, List.drop_eq_nil_of_le (by omega)]
        simp [bne, Bool.beq_eq_decide_eq]
      · rw [List.drop_eq_nil_of_le (by omega)]; exact .nil

/-! ### Theorems -/

/-- **C33 (column reader).** On a file with at least one row, all rows well formed and fields shorter than 4 GiB, opening a column
reader succeeds, `Rows()` is the number of rows, and `Seek(c)` followed by `Next(k)` returns columns `c, ..., c+k-1` of the
selection, each with the values of all rows in order. -/
theorem C33_column_reader (cd : Codec F D) (fd ld : Byte) (schema : Schema) (uho : Bool) (data hd : Bytes) (sel0 : List (Nat × Ty))
    (headers : List Bytes) (hhd : (lines ld data).head? = some hd) (hhs : parseHeader [] (strSplit fd hd) = some headers)
    (hne : schema ≠ []) (hsel : selectFeatures headers schema = some sel0) (hrows : dataLines ld data ≠ [])
    (hrow : ∀ line ∈ dataLines ld data, RowOk cd fd headers.length (if uho then sortSel sel0 else sel0) line)
    (hlen : ∀ line ∈ dataLines ld data, ∀ x ∈ strSplit fd line, x.length < 4294967296) :
    ∃ r : ColReader F D, openColReader cd fd ld schema uho data = .ok r ∧ r.total = (dataLines ld data).length ∧ r.cur = 0 ∧
      ∀ c, c < schema.length → ∃ r', r.seek c = (r', .ok ()) ∧ r'.cur = c ∧ ∀ k, 0 < k → ∃ b, (r'.nextN k).2 = .ok (true, b) ∧
        IsBatch cd fd (((if uho then sortSel sel0 else sel0).drop c).take k) (dataLines ld data) b := by
  generalize hsels : (if uho then sortSel sel0 else sel0) = sel at *
  have hL : lines ld data = hd :: dataLines ld data := by
    cases hx : lines ld data with
    | nil => rw [hx] at hhd; simp at hhd
    | cons a l => rw [hx] at hhd; simp at hhd; subst hhd; simp [dataLines, hx]
  have h0 : Ok ld data (hd :: dataLines ld data) (Stream.opened data) :=
    ⟨rfl, Nat.zero_le _, by simpa [Stream.opened] using hL, by simp [Stream.opened], by simp [Stream.opened]⟩
  obtain ⟨h1, h2⟩ := getLine_cons h0
  have hsellen : sel.length = schema.length := by
    rw [← hsels, (selectFeatures_spec hsel).length_eq]
    cases uho with
    | false => rfl
    | true => exact (sortSel_perm sel0).length_eq
  have hempty : ∀ s : List (Nat × Ty), List.Forall₂ (fun s f => Holds cd fd s [] f) s (s.map (fun s => (emptyFile s.2 : ColFile F D))) := by
    intro s
    induction s with
    | nil => exact .nil
    | cons a s ih => exact .cons (holds_empty cd fd a) ih
  have hfuel : (dataLines ld data).length < data.length + 1 := by
    have := lines_length_le ld data
    rw [hL] at this; simp only [List.length_cons] at this; omega
  obtain ⟨fs, e1, e2⟩ := buildLoop_ok (cd := cd) (dataLines ld data) [] (data.length + 1) hfuel
    ⟨fd, ld, 0, ((Stream.opened data).getLine ld).2, headers, sel, 0, none, []⟩ h2 hrow hlen _ (hempty sel)
  simp only [List.length_nil, Nat.zero_add, List.nil_append] at e1 e2
  have hse : schema.isEmpty = false := by cases schema; exact absurd rfl hne; rfl
  refine ⟨⟨fs, (dataLines ld data).length, 0⟩, ?_, rfl, rfl, ?_⟩
  · unfold openColReader
    simp only [Reader.nextLine, h1, Option.map_some, hhs, hse, Bool.false_eq_true, if_false, hsel, hsels, e1]
  · intro c hc
    have hfl : fs.length = sel.length := e2.length_eq.symm
    refine ⟨⟨fs, (dataLines ld data).length, c⟩, by simp [ColReader.seek]; omega, rfl, ?_⟩
    intro k hk
    obtain ⟨b, g1, cols, g2, g3, g4⟩ := nextLoop_ok (cd := cd) (fd := fd) hrows sel k ⟨fs, (dataLines ld data).length, c⟩ e2 rfl
      (by show c ≤ _; omega) 0 Batch.empty (Or.inl rfl)
    simp only at g1 g3
    have hne2 : ((sel.drop c).take k).length ≠ 0 := by rw [List.length_take, List.length_drop]; omega
    refine ⟨b, ?_, ?_, ?_⟩
    · unfold ColReader.nextN
      rw [if_neg (by omega), g1]
      simp [hne2]; omega
    · have hcne : cols ≠ [] := by
        rintro rfl
        have := g3.length_eq
        simp at this; omega
      rw [g4, if_neg hcne]
    · rw [g2]; simp only [Batch.empty, List.nil_append]; exact g3

/-- A column reader cannot read a file that has a header and no rows: opening succeeds, the first `Next` throws (mapping the empty
column file fails). -/
theorem C33_column_reader_empty_violated :
    ∃ r : ColReader Unit Unit, openColReader demoCodec 44 10 [([97], .str)] false [97, 10] = .ok r ∧ (r.nextN 1).2 = .throw :=
  ⟨⟨[.str []], 0, 0⟩, by decide +kernel, by decide +kernel⟩

/-! Non-vacuity: two batches of two string columns, the header names `a`, `b`. -/

def demoSc : Schema := [([97], .str), ([98], .flt)]
def demoBatches : List (Batch Unit Unit) :=
  [⟨2, [[.str [49], .str []], [.flt (), .flt ()]]⟩, ⟨1, [[.str [32, 51]], [.flt ()]]⟩]

example : (∀ f ∈ demoSc, NameOk 44 10 f.1) ∧ (demoSc.map (·.1)).Nodup := by
  refine ⟨?_, by decide⟩
  intro f hf
  simp only [demoSc, List.mem_cons, List.not_mem_nil, or_false] at hf
  rcases hf with rfl | rfl <;> simp only [NameOk] <;> decide
example : ∀ b ∈ demoBatches, Fits demoSc b := by
  intro b hb
  simp only [demoBatches, List.mem_cons, List.not_mem_nil, or_false] at hb
  rcases hb with rfl | rfl
  · exact .cons (by decide) (.cons (by decide) .nil)
  · exact .cons (by decide) (.cons (by decide) .nil)
example : ∀ b ∈ demoBatches, ∀ col ∈ b.cols, ∀ v ∈ col, Writable demoCodec 44 10 v := by
  intro b hb col hc v hv
  simp only [demoBatches, List.mem_cons, List.not_mem_nil, or_false] at hb
  rcases hb with rfl | rfl <;> simp only [List.mem_cons, List.not_mem_nil, or_false] at hc <;> rcases hc with rfl | rfl <;>
    simp only [List.mem_cons, List.not_mem_nil, or_false, or_self] at hv
  · rcases hv with rfl | rfl <;> exact ⟨by decide, by decide, _, rfl⟩
  · subst hv; exact ⟨by decide, by decide, _, rfl⟩
  · subst hv; exact ⟨by decide, by decide, _, rfl⟩
  · subst hv; exact ⟨by decide, by decide, _, rfl⟩
example : writeAll demoCodec 44 10 demoSc demoBatches =
    .ok [97, 44, 98, 10, 49, 44, 48, 10, 44, 48, 10, 32, 51, 44, 48, 10] := by decide +kernel
example : totalRows demoBatches = 3 ∧ colData demoBatches 0 = [.str [49], .str [], .str [32, 51]] := by decide
/-- The column reader's hypotheses are met by the demo file. -/
example : openColReader demoCodec 44 10 demoSchema false demoData =
    .ok ⟨[.str [1, 0, 0, 0, 50, 1, 0, 0, 0, 52, 1, 0, 0, 0, 54], .str [1, 0, 0, 0, 49, 1, 0, 0, 0, 51, 1, 0, 0, 0, 53]], 3, 0⟩ := by
  decide +kernel

/-- Without the delimiter hypothesis the round trip fails: the value `a,b` of a one-column table is read back as a malformed row. -/
theorem C33_delimiter_in_value_violated :
    ∃ (out : Bytes) (r : Reader), writeAll demoCodec 44 10 [([97], .str)] [⟨1, [[.str [97, 44, 98]]]⟩] = .ok out ∧
      openReader 44 10 1 [([97], .str)] false false out = .ok r ∧ (r.nextN demoCodec 1).2 = .throw :=
  ⟨[97, 10, 97, 44, 98, 10], ⟨44, 10, 1, ⟨[97, 10, 97, 44, 98, 10], 2, false, false⟩, [[97]], [(0, .str)], 0, none, [(0, 2)]⟩,
    by decide +kernel, by decide +kernel, by decide +kernel⟩

end Yacl.Csv
