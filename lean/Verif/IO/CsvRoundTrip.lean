import Verif.IO.CsvProps

/-! Property C33: what the CSV writer writes, the CSV reader reads back. -/
namespace Yacl.Csv
variable {F D : Type}

/-! ### Specification -/

/-- Batch `b` fits the schema: one column per feature, all of the batch's length, values of the feature's type. -/
def Fits (sc : Schema) (b : Batch F D) : Prop :=
  List.Forall₂ (fun (f : Bytes × Ty) col => col.length = b.rows ∧ ∀ v ∈ col, v.ty = f.2) sc b.cols

/-- All values of column `c`, over a sequence of batches. -/
def colData (bs : List (Batch F D)) (c : Nat) : List (Cell F D) := bs.flatMap (fun b => (b.cols[c]?).getD [])

/-- The number of rows written. -/
def totalRows (bs : List (Batch F D)) : Nat := (bs.map (·.rows)).sum

/-- `w` is what a value `v` becomes when printed and parsed. For strings this is `v` itself (`readBack_str`); for floats it is
whatever float.h makes of it. -/
def ReadBack (cd : Codec F D) (v w : Cell F D) : Prop := parseCell cd v.ty (fmtCell cd v) = some w

theorem readBack_str (cd : Codec F D) (s : Bytes) (w : Cell F D) : ReadBack cd (.str s) w ↔ w = .str s := by
  simp [ReadBack, parseCell, fmtCell, Cell.ty, eq_comm]

/-- What the writer needs to be able to write a value so that it can be read back: no delimiter in its text, and the text of a
float parses. -/
def Writable (cd : Codec F D) (fd ld : Byte) (v : Cell F D) : Prop :=
  fd ∉ fmtCell cd v ∧ ld ∉ fmtCell cd v ∧ ∃ w, ReadBack cd v w

/-- A header name survives: not empty, no delimiter, no surrounding white space. -/
def NameOk (fd ld : Byte) (n : Bytes) : Prop := n ≠ [] ∧ strip n = n ∧ fd ∉ n ∧ ld ∉ n

/-! ### Lemmas -/

theorem strSplit_single (d : Byte) (l : Bytes) (h : d ∉ l) : strSplit d l = [l] := by
  induction l with
  | nil => rfl
  | cons a l ih =>
    simp only [List.mem_cons, not_or] at h
    have ha : ¬ a = d := fun e => h.1 e.symm
    simp [strSplit, ha, ih h.2]

theorem strSplit_append (d : Byte) (l rest : Bytes) (h : d ∉ l) : strSplit d (l ++ d :: rest) = l :: strSplit d rest := by
  induction l with
  | nil => simp [strSplit]
  | cons a l ih =>
    simp only [List.mem_cons, not_or] at h
    have ha : ¬ a = d := fun e => h.1 e.symm
    simp [strSplit, ha, ih h.2]

theorem strSplit_join (d : Byte) (ds : List Bytes) (hne : ds ≠ []) (h : ∀ x ∈ ds, d ∉ x) : strSplit d (joinWith d ds) = ds := by
  induction ds with
  | nil => exact absurd rfl hne
  | cons a ds ih =>
    cases ds with
    | nil => exact strSplit_single d a (h a (by simp))
    | cons b ds =>
      rw [joinWith, strSplit_append d a _ (h a (by simp)), ih (by simp) (fun x hx => h x (by simp [hx]))]

theorem not_mem_join (d e : Byte) (hde : e ≠ d) (ds : List Bytes) (h : ∀ x ∈ ds, e ∉ x) : e ∉ joinWith d ds := by
  induction ds with
  | nil => simp [joinWith]
  | cons a ds ih =>
    cases ds with
    | nil => exact h a (by simp)
    | cons b ds =>
      rw [joinWith]
      simp only [List.mem_append, List.mem_cons, not_or]
      exact ⟨h a (by simp), hde, ih (fun x hx => h x (by simp [hx]))⟩

theorem lines_flat (ld : Byte) (L : List Bytes) (h : ∀ l ∈ L, ld ∉ l) : lines ld (L.flatMap (fun l => l ++ [ld])) = L := by
  induction L with
  | nil => rfl
  | cons a L ih =>
    rw [List.flatMap_cons, List.append_assoc, List.singleton_append, lines_append_delim ld a _ (h a (by simp)),
      ih (fun l hl => h l (by simp [hl]))]

/-- The texts of row `r` of a list of columns. -/
def rowTexts (cd : Codec F D) (cols : List (List (Cell F D))) (r : Nat) : List Bytes :=
  cols.filterMap (fun col => (col[r]?).map (fmtCell cd))

/-- The lines the writer emits for a batch. -/
def batchLines (cd : Codec F D) (fd : Byte) (b : Batch F D) : List Bytes :=
  (List.range b.rows).map (fun r => joinWith fd (rowTexts cd b.cols r))

theorem forall₂_drop {α β : Type} {P : α → β → Prop} {l : List α} {m : List β} (h : List.Forall₂ P l m) (n : Nat) :
    List.Forall₂ P (l.drop n) (m.drop n) := by
  induction h generalizing n with
  | nil => simp
  | cons h1 _ ih => cases n with
    | zero => exact .cons h1 (by assumption)
    | succ n => exact ih n

theorem forall₂_take {α β : Type} {P : α → β → Prop} {l : List α} {m : List β} (h : List.Forall₂ P l m) (n : Nat) :
    List.Forall₂ P (l.take n) (m.take n) := by
  induction h generalizing n with
  | nil => simp
  | cons h1 _ ih => cases n with
    | zero => exact .nil
    | succ n => exact .cons h1 (ih n)

theorem forall₂_mid {α β γ : Type} {P : α → β → Prop} {Q : α → γ → Prop} {S : β → γ → Prop} {l : List α} {m : List β} {n : List γ}
    (h : List.Forall₂ P l m) (h' : List.Forall₂ Q l n) (hs : ∀ a b c, P a b → Q a c → S b c) : List.Forall₂ S m n := by
  induction h generalizing n with
  | nil => cases h'; exact .nil
  | cons h1 _ ih => cases h' with
    | cons g1 g2 => exact .cons (hs _ _ _ h1 g1) (ih g2)

theorem forall₂_get {α β : Type} {P : α → β → Prop} {l : List α} {m : List β} (h : List.Forall₂ P l m) (i : Nat) {a : α}
    (ha : l[i]? = some a) : ∃ b, m[i]? = some b ∧ P a b := by
  induction h generalizing i with
  | nil => simp at ha
  | cons h1 _ ih => cases i with
    | zero => simp at ha; subst ha; exact ⟨_, rfl, h1⟩
    | succ i => exact ih i (by simpa using ha)

theorem writeRow_ok (cd : Codec F D) (fd : Byte) (b : Batch F D) (r : Nat) (hr : r < b.rows) (fs : Schema) (c : Nat)
    (h : List.Forall₂ (fun (f : Bytes × Ty) col => col.length = b.rows ∧ ∀ v ∈ col, v.ty = f.2) fs (b.cols.drop c)) :
    writeRow cd fd b r c (fs.map (·.2)) = .ok (joinWith fd (rowTexts cd (b.cols.drop c) r)) := by
  induction fs generalizing c with
  | nil =>
    have : b.cols.drop c = [] := by cases hx : b.cols.drop c with
      | nil => rfl
      | cons a l => rw [hx] at h; cases h
    rw [this]; rfl
  | cons f fs ih =>
    cases hx : b.cols.drop c with
    | nil => rw [hx] at h; cases h
    | cons col rest =>
      rw [hx] at h
      cases h with
      | cons h1 h2 =>
        have hrest : b.cols.drop (c + 1) = rest := by rw [← List.drop_drop, hx]; rfl
        have hcol : b.cols[c]? = some col := by
          have := congrArg (fun l => l[0]?) hx
          simpa [List.getElem?_drop] using this
        have hv : col[r]? = some (col[r]'(by omega)) := List.getElem?_eq_getElem (by omega)
        simp only [List.map_cons, writeRow, Batch.at, hcol, hv]
        rw [if_pos (h1.2 _ (List.getElem_mem _))]
        simp only
        rw [ih (c + 1) (by rw [hrest]; exact h2), hrest]
        simp only [rowTexts, List.filterMap_cons, hv, Option.map_some]
        congr 1
        cases h2 with
        | nil => simp [joinWith]
        | cons g1 g2 =>
          rename_i f2 col2 fs2 rest2
          have hv2 : col2[r]? = some (col2[r]'(by have := g1.1; omega)) := List.getElem?_eq_getElem (by have := g1.1; omega)
          simp [hv2, joinWith]

theorem writeRows_ok (cd : Codec F D) (fd ld : Byte) (sc : Schema) (b : Batch F D) (hfit : Fits sc b) (n r : Nat)
    (hn : r + n = b.rows) :
    writeRows cd fd ld (sc.map (·.2)) b r n =
      .ok (((List.range' r n).map (fun r => joinWith fd (rowTexts cd b.cols r))).flatMap (fun l => l ++ [ld])) := by
  induction n generalizing r with
  | zero => simp [writeRows]
  | succ n ih =>
    have h1 := writeRow_ok cd fd b r (by omega) sc 0 hfit
    simp only [List.drop_zero] at h1
    simp only [writeRows, h1, ih (r + 1) (by omega)]
    simp [List.range'_succ]

theorem writerAdd_ok (cd : Codec F D) (fd ld : Byte) (sc : Schema) (b : Batch F D) (hfit : Fits sc b) :
    writerAdd cd fd ld sc b = .ok ((batchLines cd fd b).flatMap (fun l => l ++ [ld])) := by
  unfold writerAdd
  rw [if_pos hfit.length_eq.symm, writeRows_ok cd fd ld sc b hfit b.rows 0 (by omega), batchLines, List.range_eq_range']

theorem addAll_ok (cd : Codec F D) (fd ld : Byte) (sc : Schema) (bs : List (Batch F D)) (hfit : ∀ b ∈ bs, Fits sc b) (out : Bytes) :
    addAll cd fd ld sc out bs = .ok (out ++ (bs.flatMap (batchLines cd fd)).flatMap (fun l => l ++ [ld])) := by
  induction bs generalizing out with
  | nil => simp [addAll]
  | cons b bs ih =>
    simp only [addAll, writerAdd_ok cd fd ld sc b (hfit b (by simp))]
    rw [ih (fun b hb => hfit b (by simp [hb]))]
    simp

/-- Row `r` of a fitting batch, field `i`. -/
theorem rowTexts_get (cd : Codec F D) (sc : Schema) (n r : Nat) (hr : r < n) (cols : List (List (Cell F D)))
    (h : List.Forall₂ (fun (f : Bytes × Ty) col => col.length = n ∧ ∀ v ∈ col, v.ty = f.2) sc cols) (i : Nat) :
    (rowTexts cd cols r).length = sc.length ∧
    ∀ f, sc[i]? = some f → ∃ col v, cols[i]? = some col ∧ col[r]? = some v ∧ v.ty = f.2 ∧
      (rowTexts cd cols r)[i]? = some (fmtCell cd v) := by
  induction h generalizing i with
  | nil => simp [rowTexts]
  | cons h1 _ ih =>
    rename_i f col sc cols _
    have hv : col[r]? = some (col[r]'(by have := h1.1; omega)) := List.getElem?_eq_getElem (by have := h1.1; omega)
    have hcons : rowTexts cd (col :: cols) r = fmtCell cd (col[r]'(by have := h1.1; omega)) :: rowTexts cd cols r := by
      simp [rowTexts, hv]
    refine ⟨by rw [hcons]; simp [(ih 0).1], ?_⟩
    intro f' hf'
    cases i with
    | zero =>
      simp at hf'; subst hf'
      exact ⟨col, _, rfl, hv, h1.2 _ (List.getElem_mem _), by rw [hcons]; rfl⟩
    | succ i =>
      obtain ⟨col', v, e1, e2, e3, e4⟩ := (ih i).2 f' (by simpa using hf')
      exact ⟨col', v, by simpa using e1, e2, e3, by rw [hcons]; simpa using e4⟩

theorem rowTexts_mem (cd : Codec F D) (cols : List (List (Cell F D))) (r : Nat) (x : Bytes) (h : x ∈ rowTexts cd cols r) :
    ∃ col ∈ cols, ∃ v ∈ col, x = fmtCell cd v := by
  simp only [rowTexts, List.mem_filterMap, Option.map_eq_some_iff] at h
  obtain ⟨col, hcol, v, hv, rfl⟩ := h
  exact ⟨col, hcol, v, List.mem_of_getElem? hv, rfl⟩

theorem forall₂_map_range {β : Type} {P : Bytes → β → Prop} (f : Nat → Bytes) (col : List β) (n : Nat) (hn : col.length = n)
    (h : ∀ r v, r < n → col[r]? = some v → P (f r) v) : List.Forall₂ P ((List.range n).map f) col := by
  rw [List.forall₂_iff_get]
  refine ⟨by simp [hn], ?_⟩
  intro i h1 h2
  simp only [List.length_map, List.length_range] at h1
  have := h i (col.get ⟨i, h2⟩) h1 (by simp)
  simpa using this

/-- The lines written and the column data correspond one to one. -/
theorem lines_cols (cd : Codec F D) (fd : Byte) (sc : Schema) (hsc : sc ≠ []) (bs : List (Batch F D)) (hfit : ∀ b ∈ bs, Fits sc b)
    (hfree : ∀ b ∈ bs, ∀ col ∈ b.cols, ∀ v ∈ col, fd ∉ fmtCell cd v) (i : Nat) (f : Bytes × Ty) (hf : sc[i]? = some f) :
    List.Forall₂ (fun line v => (strSplit fd line)[i]? = some (fmtCell cd v) ∧ v.ty = f.2 ∧ (∃ b ∈ bs, ∃ col ∈ b.cols, v ∈ col))
      (bs.flatMap (batchLines cd fd)) (colData bs i) := by
  induction bs with
  | nil => exact .nil
  | cons b bs ih =>
    have ih' := ih (fun b hb => hfit b (by simp [hb])) (fun b hb => hfree b (by simp [hb]))
    simp only [List.flatMap_cons, colData] at ih' ⊢
    apply forall₂_append
    · have hb := hfit b (by simp)
      obtain ⟨col, hcol, hlen, _⟩ := forall₂_get hb i hf
      rw [hcol]
      simp only [Option.getD_some, batchLines]
      apply forall₂_map_range _ _ _ hlen
      intro r v hr hv
      obtain ⟨hl, hg⟩ := rowTexts_get cd sc b.rows r hr b.cols hb i
      obtain ⟨col', v', e1, e2, e3, e4⟩ := hg f hf
      rw [hcol] at e1; cases e1
      rw [hv] at e2; cases e2
      refine ⟨?_, e3, b, by simp, col, List.mem_of_getElem? hcol, List.mem_of_getElem? hv⟩
      rw [strSplit_join fd _ ?_ ?_, e4]
      · intro hn; rw [hn] at hl; simp at hl; exact hsc (List.length_eq_zero_iff.mp hl.symm)
      · intro x hx
        obtain ⟨col, hcol, v, hv, rfl⟩ := rowTexts_mem cd b.cols r x hx
        exact hfree b (by simp) col hcol v hv
    · refine List.Forall₂.imp ?_ ih'
      rintro line v ⟨h1, h2, b', hb', h3⟩
      exact ⟨h1, h2, b', by simp [hb'], h3⟩

theorem length_rows (cd : Codec F D) (fd : Byte) (bs : List (Batch F D)) :
    (bs.flatMap (batchLines cd fd)).length = totalRows bs := by
  induction bs with
  | nil => rfl
  | cons b bs ih => simp [totalRows] at ih ⊢; simp [ih, batchLines]

theorem width_rows (cd : Codec F D) (fd : Byte) (sc : Schema) (hsc : sc ≠ []) (bs : List (Batch F D)) (hfit : ∀ b ∈ bs, Fits sc b)
    (hfree : ∀ b ∈ bs, ∀ col ∈ b.cols, ∀ v ∈ col, fd ∉ fmtCell cd v) (line : Bytes) (hl : line ∈ bs.flatMap (batchLines cd fd)) :
    (strSplit fd line).length = sc.length := by
  simp only [List.mem_flatMap, batchLines, List.mem_map, List.mem_range] at hl
  obtain ⟨b, hb, r, hr, rfl⟩ := hl
  obtain ⟨hl, _⟩ := rowTexts_get cd sc b.rows r hr b.cols (hfit b hb) 0
  rw [strSplit_join fd _ ?_ ?_, hl]
  · intro hn; rw [hn] at hl; simp at hl; exact hsc (List.length_eq_zero_iff.mp hl.symm)
  · intro x hx
    obtain ⟨col, hcol, v, hv, rfl⟩ := rowTexts_mem cd b.cols r x hx
    exact hfree b hb col hcol v hv

theorem run_snoc (cd : Codec F D) (r : Reader) (h : List Call) (c : Call) : r.run cd (h ++ [c]) = (r.run cd h).step cd c := by
  simp [Reader.run]

/-- After `j` reads of up to `k` rows the reader stands at row `min (j*k) n`. -/
theorem run_reads {cd : Codec F D} {data : Bytes} {R : List Bytes} {r : Reader} (h : Inv data R r) (h0 : r.cur = 0)
    (he : r.input.eof = false) (hrow : ∀ line ∈ R, RowOk cd r.fd r.headers.length r.sel line) (k : Nat) (hk : 0 < k) (j : Nat) :
    let s := r.run cd (List.replicate j (.nextN k))
    Inv data R s ∧ Same r s ∧ s.cur = min (j * k) R.length ∧ (s.input.eof = true → s.total = some R.length) := by
  induction j with
  | zero => exact ⟨h, Same.refl r, by show r.cur = _; rw [h0]; simp, by show r.input.eof = true → _; simp [he]⟩
  | succ j ih =>
    obtain ⟨i1, i2, i3, i4⟩ := ih
    simp only
    rw [List.replicate_succ', run_snoc]
    generalize r.run cd (List.replicate j (.nextN k)) = s at *
    simp only [Reader.step, Reader.nextN, if_neg (show ¬ k = 0 by omega)]
    obtain ⟨b, n1, n2, n3, n4, n5, n6, n7, n8⟩ := nextRow_spec (cd := cd) i1 (by rw [i2.fd, i2.hs, i2.sel]; exact hrow) k
    refine ⟨n4, i2.trans n5, ?_, ?_⟩
    · rw [n6, i3, Nat.succ_mul]; omega
    · intro hh
      rcases n8 hh with e | e
      · exact e
      · rw [e] at hh ⊢; exact i4 hh

/-- **C33.** Write any sequence of batches that fit the schema and whose texts contain no delimiter. Writing succeeds; a reader
opened on the output, asking for any of the features in any order, sees the written header names; and the `j`-th call of
`Next(k)` returns, for each requested feature (in the requested order, or in file order with `use_header_order`), exactly rows
`j*k, ..., j*k+k-1` of what was written to that feature's column, returning false exactly when no row is left, after which
`Rows()` is the number of rows written. -/
theorem C33_roundtrip (cd : Codec F D) (fd ld : Byte) (hne : fd ≠ ld) (sc : Schema) (hsc : sc ≠ [])
    (hnames : ∀ f ∈ sc, NameOk fd ld f.1) (hnd : (sc.map (·.1)).Nodup) (bs : List (Batch F D)) (hfit : ∀ b ∈ bs, Fits sc b)
    (hw : ∀ b ∈ bs, ∀ col ∈ b.cols, ∀ v ∈ col, Writable cd fd ld v)
    (rs : Schema) (hrs : ∀ f ∈ rs, f ∈ sc) (batch : Nat) (uho cl : Bool) (hcl : cl = true → batch ≠ 0 ∧ totalRows bs ≠ 0) :
    ∃ out r order, writeAll cd fd ld sc bs = .ok out ∧ openReader fd ld batch rs uho cl out = .ok r ∧
      r.headers = sc.map (·.1) ∧ order.Perm rs ∧ (uho = false → order = rs) ∧
      (uho = true → order.Pairwise (fun f g => (sc.map (·.1)).idxOf f.1 ≤ (sc.map (·.1)).idxOf g.1)) ∧
      ∀ k, 0 < k → ∀ j, ∃ s' b,
        (r.run cd (List.replicate j (.nextN k))).nextN cd k = (s', .ok (decide (j * k < totalRows bs), b)) ∧
        (j * k < totalRows bs →
          b.rows = min k (totalRows bs - j * k) ∧
          List.Forall₂ (fun (f : Bytes × Ty) col =>
            ∃ c, sc[c]? = some f ∧ List.Forall₂ (ReadBack cd) (((colData bs c).drop (j * k)).take k) col) order b.cols) ∧
        (totalRows bs ≤ j * k → s'.total = some (totalRows bs)) := by
  have hfree : ∀ b ∈ bs, ∀ col ∈ b.cols, ∀ v ∈ col, fd ∉ fmtCell cd v := fun b hb col hc v hv => (hw b hb col hc v hv).1
  have hfreel : ∀ b ∈ bs, ∀ col ∈ b.cols, ∀ v ∈ col, ld ∉ fmtCell cd v := fun b hb col hc v hv => (hw b hb col hc v hv).2.1
  -- writing
  have hwr : writeAll cd fd ld sc bs = .ok (writerInit fd ld sc ++ (bs.flatMap (batchLines cd fd)).flatMap (fun l => l ++ [ld])) := by
    unfold writeAll
    have : sc.isEmpty = false := by cases sc; exact absurd rfl hsc; rfl
    rw [this]
    exact addAll_ok cd fd ld sc bs hfit _
  -- lines of the output
  have hlf : ∀ l ∈ bs.flatMap (batchLines cd fd), ld ∉ l := by
    intro l hl
    simp only [List.mem_flatMap, batchLines, List.mem_map, List.mem_range] at hl
    obtain ⟨b, hb, r, hr, rfl⟩ := hl
    apply not_mem_join fd ld (fun e => hne e.symm)
    intro x hx
    obtain ⟨col, hcol, v, hv, rfl⟩ := rowTexts_mem cd b.cols r x hx
    exact hfreel b hb col hcol v hv
  have hnamel : ∀ x ∈ sc.map (·.1), ld ∉ x := by
    intro x hx
    simp only [List.mem_map] at hx
    obtain ⟨f, hf, rfl⟩ := hx
    exact (hnames f hf).2.2.2
  have hnamef : ∀ x ∈ sc.map (·.1), fd ∉ x := by
    intro x hx
    simp only [List.mem_map] at hx
    obtain ⟨f, hf, rfl⟩ := hx
    exact (hnames f hf).2.2.1
  have hL : lines ld (writerInit fd ld sc ++ (bs.flatMap (batchLines cd fd)).flatMap (fun l => l ++ [ld])) =
      joinWith fd (sc.map (·.1)) :: bs.flatMap (batchLines cd fd) := by
    rw [writerInit, List.append_assoc, List.singleton_append,
      lines_append_delim ld _ _ (not_mem_join fd ld (fun e => hne e.symm) _ hnamel), lines_flat ld _ hlf]
  -- header
  have hstrip : (sc.map (·.1)).map strip = sc.map (·.1) := by
    rw [List.map_map]
    apply List.map_congr_left
    intro f hf
    exact (hnames f hf).2.1
  have hp : parseHeader [] (strSplit fd (joinWith fd (sc.map (·.1)))) = some (sc.map (·.1)) := by
    rw [strSplit_join fd _ (by simpa using hsc) hnamef, parseHeader_spec, hstrip]
    refine ⟨by simp, ?_, by simp, hnd⟩
    intro n hn
    simp only [List.mem_map] at hn
    obtain ⟨f, hf, rfl⟩ := hn
    exact (hnames f hf).1
  obtain ⟨sel, hsel⟩ := selectFeatures_isSome (sc.map (·.1)) rs (fun f hf => List.mem_map_of_mem (hrs f hf))
  have hcl' : cl = true → batch ≠ 0 ∧ bs.flatMap (batchLines cd fd) ≠ [] := by
    intro h
    refine ⟨(hcl h).1, fun e => (hcl h).2 ?_⟩
    rw [← length_rows cd fd bs, e]; rfl
  obtain ⟨r, e1, e2, e3, e4, e5, e6, e7, e8, e9⟩ := open_ok fd ld batch rs uho cl _ _ _ _ sel hL hp hsel hcl'
  have hS := selectFeatures_spec hsel
  -- each selected column
  have hselc : ∀ s ∈ r.sel, ∃ f, sc[s.1]? = some f ∧ s.2 = f.2 := by
    have hall : ∀ s ∈ sel, ∃ f, sc[s.1]? = some f ∧ s.2 = f.2 := by
      intro s hs
      obtain ⟨i, hi⟩ := List.mem_iff_getElem?.mp hs
      have hflip : List.Forall₂ (fun (s : Nat × Ty) (f : Bytes × Ty) => (sc.map (·.1))[s.1]? = some f.1 ∧ s.2 = f.2) sel rs := hS.flip
      obtain ⟨f, hf, h1, h2⟩ := forall₂_get hflip i hi
      have hmem := hrs f (List.mem_of_getElem? hf)
      obtain ⟨c, hc⟩ := List.mem_iff_getElem?.mp hmem
      have hc' : (sc.map (·.1))[c]? = some f.1 := by rw [List.getElem?_map, hc]; rfl
      have : s.1 = c := by
        have hlt : s.1 < (sc.map (·.1)).length := by
          by_contra hge
          rw [List.getElem?_eq_none (by omega)] at h1; simp at h1
        exact (List.getElem?_inj hlt hnd).mp (h1.trans hc'.symm)
      rw [this]
      exact ⟨f, hc, h2⟩
    intro s hs
    rw [e8] at hs
    cases uho with
    | false => exact hall s hs
    | true => exact hall s ((sortSel_perm sel).mem_iff.mp hs)
  have hrow : ∀ line ∈ bs.flatMap (batchLines cd fd), RowOk cd r.fd r.headers.length r.sel line := by
    intro line hl
    rw [e4, e7]
    refine ⟨by rw [width_rows cd fd sc hsc bs hfit hfree line hl]; simp, ?_⟩
    intro s hs
    obtain ⟨f, hf, ht⟩ := hselc s hs
    have hc := lines_cols cd fd sc hsc bs hfit hfree s.1 f hf
    obtain ⟨i, hi⟩ := List.mem_iff_getElem?.mp hl
    obtain ⟨v, hv, g1, g2, b, hb, col, hcol, hvm⟩ := forall₂_get hc i hi
    obtain ⟨w, hwv⟩ := (hw b hb col hcol v hvm).2.2
    refine ⟨w, fmtCell cd v, g1, ?_⟩
    unfold ReadBack at hwv
    rw [ht, ← g2]; exact hwv
  -- the order of the features
  let g : Nat × Ty → Bytes × Ty := fun s => (((sc.map (·.1))[s.1]?).getD [], s.2)
  have hmapg : sel.map g = rs := by
    have : ∀ (a : Schema) (s : List (Nat × Ty)), Selects (sc.map (·.1)) a s → s.map g = a := by
      intro a s h
      induction h with
      | nil => rfl
      | cons h1 _ ih =>
        simp only [List.map_cons, ih, g, h1.1, h1.2, Option.getD_some]
    exact this rs sel hS
  have hg : ∀ s ∈ r.sel, sc[s.1]? = some (g s) := by
    intro s hs
    obtain ⟨f, hf, ht⟩ := hselc s hs
    simp only [g, List.getElem?_map, hf, Option.map_some, Option.getD_some, ht]
  refine ⟨_, r, r.sel.map g, hwr, e1, e7, ?_, ?_, ?_, ?_⟩
  · rw [e8]
    cases uho with
    | false => simp only [Bool.false_eq_true, if_false]; rw [hmapg]
    | true => simp only [if_true]; rw [← hmapg]; exact (sortSel_perm sel).map g
  · rintro rfl
    rw [e8]; simpa using hmapg
  · rintro rfl
    rw [List.pairwise_map]
    have hidx : ∀ s ∈ r.sel, (sc.map (·.1)).idxOf (g s).1 = s.1 := by
      intro s hs
      have h1 := hg s hs
      have h2 : (sc.map (·.1))[s.1]? = some (g s).1 := by rw [List.getElem?_map, h1]; rfl
      have hlt : s.1 < (sc.map (·.1)).length := by
        by_contra hge
        rw [List.getElem?_eq_none (by omega)] at h2; simp at h2
      have h3 : (sc.map (·.1))[s.1] = (g s).1 := by rw [List.getElem?_eq_getElem hlt] at h2; simpa using h2
      rw [← h3]
      exact List.Nodup.idxOf_getElem hnd _ hlt
    have hsorted : r.sel.Pairwise (fun a b => a.1 ≤ b.1) := by rw [e8]; exact sortSel_sorted sel
    refine hsorted.imp_of_mem ?_
    intro a b ha hb hab
    rw [hidx a ha, hidx b hb]; exact hab
  · intro k hk j
    have heof := open_not_eof _ _ _ _ _ _ _ _ e1
    obtain ⟨i1, i2, i3, i4⟩ := run_reads (cd := cd) e2 e3 heof hrow k hk j
    generalize r.run cd (List.replicate j (.nextN k)) = s at *
    obtain ⟨b, n1, n2, n3, n4, n5, n6, n7, n8⟩ := nextRow_spec (cd := cd) i1 (by rw [i2.fd, i2.hs, i2.sel]; exact hrow) k
    have hlenR := length_rows cd fd bs
    generalize hR : bs.flatMap (batchLines cd fd) = R at *
    rw [hlenR] at i3 i4 n6 n7 n8
    have hcase : (R.drop s.cur).take k = (R.drop (j * k)).take k := by
      by_cases hjk : j * k ≤ totalRows bs
      · rw [i3, Nat.min_eq_left hjk]
      · rw [i3, Nat.min_eq_right (by omega), List.drop_eq_nil_of_le (by omega), List.drop_eq_nil_of_le (by omega)]
    rw [hcase] at n1 n2 n3
    have hlen : ((R.drop (j * k)).take k).length = min k (totalRows bs - j * k) := by
      rw [List.length_take, List.length_drop, hlenR]
    have hdec : (((R.drop (j * k)).take k).length ≠ 0) = (j * k < totalRows bs) := propext (by rw [hlen]; omega)
    refine ⟨(s.nextN cd k).1, b, ?_, ?_, ?_⟩
    · refine Prod.ext rfl ?_
      unfold Reader.nextN
      rw [if_neg (by omega), n1]
      simp only [hdec]
    · intro hlt
      have hb := n2 (by rw [hlen]; omega)
      refine ⟨by rw [n3, hlen], ?_⟩
      have hcols := hb.2
      rw [i2.fd, i2.sel, e4] at hcols
      rw [List.forall₂_map_left_iff]
      have himp : ∀ (ss : List (Nat × Ty)) (cs : List (List (Cell F D))), (∀ x ∈ ss, x ∈ r.sel) →
          List.Forall₂ (fun (s : Nat × Ty) col => List.Forall₂ (fun line v => ReadAs cd fd s.1 s.2 line v) ((R.drop (j * k)).take k) col) ss cs →
          List.Forall₂ (fun (s : Nat × Ty) col => ∃ c, sc[c]? = some (g s) ∧
            List.Forall₂ (ReadBack cd) (((colData bs c).drop (j * k)).take k) col) ss cs := by
        intro ss cs hmem h
        induction h with
        | nil => exact .nil
        | cons h1 _ ih =>
          rename_i s0 col0 _ _ _
          refine .cons ?_ (ih (fun x hx => hmem x (by simp [hx])))
          have hs0 := hmem s0 (by simp)
          refine ⟨s0.1, hg s0 hs0, ?_⟩
          have hc := lines_cols cd fd sc hsc bs hfit hfree s0.1 (g s0) (hg s0 hs0)
          rw [hR] at hc
          have hc' := forall₂_take (forall₂_drop hc (j * k)) k
          apply forall₂_mid hc' h1
          rintro line v w ⟨g1, g2, _⟩ ⟨f, q1, q2⟩
          rw [g1] at q1; cases q1
          unfold ReadBack
          rw [g2]; exact q2
      exact himp r.sel b.cols (fun x hx => hx) hcols
    · intro hge
      have : (s.nextN cd k).1 = (s.nextRow cd k).1 := by unfold Reader.nextN; rw [if_neg (by omega)]
      rw [this]
      rcases n7 (by omega) with h | h
      · exact h
      · rcases n8 with _
        have hs : (s.nextRow cd k).1 = s := by unfold Reader.nextRow; rw [if_pos h]
        rw [hs]; exact i4 h

end Yacl.Csv
