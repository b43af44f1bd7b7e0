import Verif.IO.CsvSpec
import Mathlib.Data.List.TakeWhile

namespace Yacl.Csv
variable {F D : Type}

/-! ### Lines and getline -/

theorem lines_ne_nil (ld : Byte) (c : Byte) (cs : Bytes) : lines ld (c :: cs) ≠ [] := by
  simp only [lines]
  split
  · simp
  · split <;> simp

theorem lines_append_delim (ld : Byte) (l rest : Bytes) (h : ld ∉ l) :
    lines ld (l ++ ld :: rest) = l :: lines ld rest := by
  induction l with
  | nil => simp [lines]
  | cons a l ih =>
    simp only [List.mem_cons, not_or] at h
    have ha : ¬ a = ld := fun e => h.1 e.symm
    simp [lines, ha, ih h.2]

theorem lines_last (ld : Byte) (l : Bytes) (h : ld ∉ l) (hne : l ≠ []) : lines ld l = [l] := by
  induction l with
  | nil => exact absurd rfl hne
  | cons a l ih =>
    simp only [List.mem_cons, not_or] at h
    have ha : ¬ a = ld := fun e => h.1 e.symm
    cases l with
    | nil => simp [lines, ha]
    | cons b l =>
      have := ih h.2 (by simp)
      rw [lines]
      simp [ha, this]

theorem takeWhile_split (d : Byte) (l : Bytes) :
    d ∉ l.takeWhile (· != d) ∧
    (l = l.takeWhile (· != d) ∨ ∃ rest, l = l.takeWhile (· != d) ++ d :: rest) := by
  induction l with
  | nil => simp
  | cons a l ih =>
    by_cases h : a = d
    · subst h; simp
    · have h' : (a != d) = true := by simpa using h
      rw [List.takeWhile_cons, if_pos h']
      refine ⟨?_, ?_⟩
      · simp only [List.mem_cons, not_or]; exact ⟨fun e => h e.symm, ih.1⟩
      · rcases ih.2 with e | ⟨rest, e⟩
        · left; exact congrArg (a :: ·) e
        · right; exact ⟨rest, congrArg (a :: ·) e⟩

/-- The stream stands before the lines `R`. -/
structure Ok (ld : Byte) (data : Bytes) (R : List Bytes) (s : Stream) : Prop where
  data_eq : s.data = data
  pos_le : s.pos ≤ data.length
  rest : lines ld (data.drop s.pos) = R
  eof_nil : s.eof = true → R = []
  fail_eof : s.fail = true → s.eof = true

theorem getLine_nil {ld : Byte} {data : Bytes} {s : Stream} (h : Ok ld data [] s) :
    (s.getLine ld).1 = none ∧ Ok ld data [] (s.getLine ld).2 ∧ (s.getLine ld).2.eof = true := by
  obtain ⟨hd, hp, hr, he, hf⟩ := h
  have hdrop : data.drop s.pos = [] := by
    cases hx : data.drop s.pos with
    | nil => rfl
    | cons a l => rw [hx] at hr; exact absurd hr (lines_ne_nil ld a l)
  unfold Stream.getLine
  by_cases hb : (s.eof || s.fail) = true
  · rw [if_pos hb]
    have : s.eof = true := by
      rcases Bool.or_eq_true_iff.mp hb with h | h
      · exact h
      · exact hf h
    exact ⟨rfl, ⟨hd, hp, hr, he, fun _ => this⟩, this⟩
  · rw [if_neg hb, hd, hdrop]
    simp only [List.takeWhile_nil, List.length_nil, Nat.lt_irrefl, if_false, List.isEmpty_nil, if_true, true_and]
    refine ⟨⟨rfl, Nat.le_refl _, ?_, fun _ => rfl, fun _ => rfl⟩, trivial⟩
    simp [lines]

theorem getLine_cons {ld : Byte} {data l : Bytes} {R : List Bytes} {s : Stream} (h : Ok ld data (l :: R) s) :
    (s.getLine ld).1 = some l ∧ Ok ld data R (s.getLine ld).2 := by
  obtain ⟨hd, hp, hr, he, hf⟩ := h
  have heof : s.eof = false := by
    cases hx : s.eof with
    | false => rfl
    | true => exact absurd (he hx) (by simp)
  have hfail : s.fail = false := by
    cases hx : s.fail with
    | false => rfl
    | true => exact absurd (hf hx) (by simp [heof])
  unfold Stream.getLine
  simp only [heof, hfail, Bool.or_self, Bool.false_eq_true, if_false, hd]
  have hlen : (data.drop s.pos).length = data.length - s.pos := List.length_drop
  have hdd : ∀ n, data.drop (s.pos + n) = (data.drop s.pos).drop n := fun n => by
    rw [List.drop_drop]
  generalize data.drop s.pos = rest at *
  obtain ⟨hnot, hsp⟩ := takeWhile_split ld rest
  generalize rest.takeWhile (· != ld) = line at *
  rcases hsp with e | ⟨tl, e⟩
  · subst e
    have hne : rest ≠ [] := by rintro rfl; simp [lines] at hr
    rw [lines_last ld rest hnot hne] at hr
    simp only [List.cons.injEq] at hr
    obtain ⟨rfl, rfl⟩ := hr
    simp only [Nat.lt_irrefl, if_false]
    have : rest.isEmpty = false := by cases rest; exact absurd rfl hne; rfl
    rw [this]
    refine ⟨rfl, rfl, Nat.le_refl _, ?_, fun _ => rfl, ?_⟩
    · simp [lines]
    · simp [hfail]
  · subst e
    rw [lines_append_delim ld line tl hnot] at hr
    simp only [List.cons.injEq] at hr
    obtain ⟨rfl, rfl⟩ := hr
    have hlt : line.length < (line ++ ld :: tl).length := by simp
    rw [if_pos hlt]
    refine ⟨rfl, rfl, ?_, ?_, ?_, ?_⟩
    · simp only [List.length_append, List.length_cons] at hlen
      show s.pos + line.length + 1 ≤ _
      omega
    · show lines ld (data.drop (s.pos + line.length + 1)) = _
      rw [show s.pos + line.length + 1 = s.pos + (line.length + 1) by omega, hdd]
      congr 1
      rw [show line ++ ld :: tl = (line ++ [ld]) ++ tl by simp]
      exact List.drop_left' (by simp)
    · simp [heof]
    · simp [hfail]

theorem Ok.eof_of_nil {ld : Byte} {data : Bytes} {s : Stream} {R : List Bytes} (h : Ok ld data R s)
    (he : s.eof = true) : R = [] := h.eof_nil he

/-! ### The reader invariant -/

/-- The fields of a reader that never change after `Init`. -/
structure Same (r r' : Reader) : Prop where
  fd : r'.fd = r.fd
  ld : r'.ld = r.ld
  bs : r'.batchSize = r.batchSize
  hs : r'.headers = r.headers
  sel : r'.sel = r.sel

theorem Same.refl (r : Reader) : Same r r := ⟨rfl, rfl, rfl, rfl, rfl⟩
theorem Same.trans {a b c : Reader} (h : Same a b) (h' : Same b c) : Same a c :=
  ⟨h'.fd.trans h.fd, h'.ld.trans h.ld, h'.bs.trans h.bs, h'.hs.trans h.hs, h'.sel.trans h.sel⟩

/-- A row-map entry is right: the file position is where the lines from that row on begin. -/
def EntryOk (ld : Byte) (data : Bytes) (R : List Bytes) (e : Nat × Nat) : Prop :=
  e.1 ≤ R.length ∧ e.2 ≤ data.length ∧ lines ld (data.drop e.2) = R.drop e.1

structure Inv (data : Bytes) (R : List Bytes) (r : Reader) : Prop where
  inp : Ok r.ld data (R.drop r.cur) r.input
  cur_le : r.cur ≤ R.length
  tot : r.total = none ∨ r.total = some R.length
  map_ok : ∀ e ∈ r.rowsMap, EntryOk r.ld data R e
  map_zero : ∃ p rest, r.rowsMap = (0, p) :: rest

theorem mem_mapInsert {m : List (Nat × Nat)} {k v : Nat} {e : Nat × Nat} (h : e ∈ mapInsert m k v) :
    e ∈ m ∨ e = (k, v) := by
  induction m with
  | nil => simp [mapInsert] at h; exact Or.inr h
  | cons a m ih =>
    obtain ⟨k', v'⟩ := a
    simp only [mapInsert] at h
    split at h
    · simp only [List.mem_cons] at h ⊢; tauto
    · split at h
      · exact Or.inl h
      · simp only [List.mem_cons] at h ⊢
        rcases h with h | h
        · exact Or.inl (Or.inl h)
        · rcases ih h with h | h
          · exact Or.inl (Or.inr h)
          · exact Or.inr h

theorem mapInsert_zero (p k v : Nat) (rest : List (Nat × Nat)) :
    ∃ rest', mapInsert ((0, p) :: rest) k v = (0, p) :: rest' := by
  simp only [mapInsert]
  rw [if_neg (by omega)]
  split
  · exact ⟨_, rfl⟩
  · exact ⟨_, rfl⟩

theorem updateRowMap_same (r : Reader) : Same r r.updateRowMap := by
  unfold Reader.updateRowMap; split <;> exact ⟨rfl, rfl, rfl, rfl, rfl⟩

theorem updateRowMap_fields (r : Reader) :
    r.updateRowMap.cur = r.cur ∧ r.updateRowMap.input = r.input ∧ r.updateRowMap.total = r.total := by
  unfold Reader.updateRowMap; split <;> exact ⟨rfl, rfl, rfl⟩

theorem updateRowMap_inv {data : Bytes} {R : List Bytes} {r : Reader} (h : Inv data R r) : Inv data R r.updateRowMap := by
  unfold Reader.updateRowMap
  split
  · exact h
  · refine ⟨h.inp, h.cur_le, h.tot, ?_, ?_⟩
    · intro e he
      rcases mem_mapInsert he with he | rfl
      · exact h.map_ok e he
      · exact ⟨h.cur_le, h.inp.pos_le, h.inp.rest⟩
    · obtain ⟨p, rest, hm⟩ := h.map_zero
      show ∃ p' rest', mapInsert r.rowsMap r.cur r.input.tellg = (0, p') :: rest'
      rw [hm]
      obtain ⟨rest', e⟩ := mapInsert_zero p r.cur r.input.tellg rest
      exact ⟨p, rest', e⟩

theorem drop_nil_iff {R : List Bytes} {c : Nat} (hc : c ≤ R.length) : R.drop c = [] ↔ c = R.length := by
  rw [List.drop_eq_nil_iff]; omega

theorem noteTotal_inv {data : Bytes} {R : List Bytes} {r : Reader} (h : Inv data R r) : Inv data R r.noteTotal := by
  unfold Reader.noteTotal
  split
  · rename_i he
    have := (drop_nil_iff h.cur_le).mp (h.inp.eof_nil he)
    exact ⟨h.inp, h.cur_le, Or.inr (by rw [← this]), h.map_ok, h.map_zero⟩
  · exact h

theorem noteTotal_same (r : Reader) : Same r r.noteTotal := by
  unfold Reader.noteTotal; split <;> exact ⟨rfl, rfl, rfl, rfl, rfl⟩

theorem noteTotal_fields (r : Reader) : r.noteTotal.cur = r.cur ∧ r.noteTotal.input = r.input := by
  unfold Reader.noteTotal; split <;> exact ⟨rfl, rfl⟩

/-! ### seek -/

theorem seekLoop_spec {data : Bytes} {R : List Bytes} (n : Nat) (r : Reader)
    (hin : Ok r.ld data (R.drop r.cur) r.input) (hc : r.cur ≤ R.length) :
    ∃ inp c, seekLoop n r = { r with input := inp, cur := c } ∧ c = min (r.cur + n) R.length ∧ Ok r.ld data (R.drop c) inp := by
  induction n generalizing r with
  | zero => exact ⟨r.input, r.cur, rfl, by omega, hin⟩
  | succ n ih =>
    simp only [seekLoop, Reader.nextLineRaw]
    cases hR : R.drop r.cur with
    | nil =>
      rw [hR] at hin
      obtain ⟨h1, h2, h3⟩ := getLine_nil hin
      rw [h1]
      have hl := (drop_nil_iff hc).mp hR
      exact ⟨_, r.cur, rfl, by omega, by rw [hR]; exact h2⟩
    | cons l ls =>
      rw [hR] at hin
      obtain ⟨h1, h2⟩ := getLine_cons hin
      rw [h1]
      have hlt : r.cur < R.length := by
        by_contra hge
        rw [List.drop_eq_nil_of_le (by omega)] at hR; simp at hR
      have hls : R.drop (r.cur + 1) = ls := by
        rw [← List.drop_drop, hR]; rfl
      obtain ⟨inp, c, e1, e2, e3⟩ := ih { r with input := (r.input.getLine r.ld).2, cur := r.cur + 1 }
        (by show Ok r.ld data (R.drop (r.cur + 1)) _; rw [hls]; exact h2) (by show r.cur + 1 ≤ _; omega)
      refine ⟨inp, c, e1, ?_, e3⟩
      rw [e2]; show min (r.cur + 1 + n) _ = _; congr 1; omega

theorem seekg_ok {ld : Byte} {data : Bytes} {R : List Bytes} {s : Stream} {e : Nat × Nat} (hd : s.data = data)
    (he : EntryOk ld data R e) : Ok ld data (R.drop e.1) (s.seekg e.2) :=
  ⟨hd, he.2.1, he.2.2, by simp [Stream.seekg], by simp [Stream.seekg]⟩

theorem seek_entry {data : Bytes} {R : List Bytes} {r : Reader} (h : Inv data R r) (i : Nat) :
    ∃ k p, (r.rowsMap.takeWhile (fun e => decide (e.1 ≤ i))).getLast? = some (k, p) ∧ k ≤ i ∧ EntryOk r.ld data R (k, p) := by
  obtain ⟨p, rest, hm⟩ := h.map_zero
  have hne : r.rowsMap.takeWhile (fun e => decide (e.1 ≤ i)) ≠ [] := by rw [hm]; simp
  refine ⟨((r.rowsMap.takeWhile (fun e => decide (e.1 ≤ i))).getLast hne).1, _, List.getLast?_eq_some_getLast hne, ?_, ?_⟩
  · have := List.mem_takeWhile_imp (List.getLast_mem hne)
    simpa using this
  · exact h.map_ok _ ((List.takeWhile_prefix _).subset (List.getLast_mem hne))

/-- `Seek` keeps the invariant whatever happens; on an existing row it succeeds and lands there. -/
theorem seek_spec {data : Bytes} {R : List Bytes} {r : Reader} (h : Inv data R r) (i : Nat) :
    Inv data R (r.seek i).1 ∧ Same r (r.seek i).1 ∧ (i < R.length → (r.seek i).2 = .ok () ∧ (r.seek i).1.cur = i) ∧
    (R.length < i → (r.seek i).2 = .throw) ∧ (r.seek i).2 ≠ .ub ∧ ((r.seek i).2 = .ok () → (r.seek i).1.cur = i) ∧
    (r.total = none → i ≤ R.length → (r.seek i).2 = .ok ()) := by
  unfold Reader.seek
  by_cases hc : r.inRange i = true
  · rw [if_pos hc]
    obtain ⟨k, p, e1, e2, e3⟩ := seek_entry h i
    rw [e1]
    simp only
    obtain ⟨inp, c, f1, f2, f3⟩ := seekLoop_spec (data := data) (R := R) (i - k) { r with input := r.input.seekg p, cur := k }
      (seekg_ok h.inp.data_eq e3) e3.1
    rw [f1]
    have hc2 : c = min i R.length := by rw [f2]; show min (k + (i - k)) _ = _; rw [show k + (i - k) = i by omega]
    refine ⟨⟨f3, by show c ≤ _; omega, h.tot, h.map_ok, h.map_zero⟩, ⟨rfl, rfl, rfl, rfl, rfl⟩, ?_, ?_, ?_, ?_, ?_⟩
    · intro hi
      have : c = i := by omega
      subst this; simp
    · intro hi; simp; omega
    · split <;> simp
    · show (if c = i then Out.ok () else Out.throw) = _ → c = i
      split
      · intro _; assumption
      · simp
    · intro _ hi
      have : c = i := by omega
      subst this; simp
  · rw [if_neg hc]
    refine ⟨h, Same.refl r, ?_, fun _ => rfl, by simp, by simp, ?_⟩
    · intro hi
      rcases h.tot with ht | ht <;> simp [Reader.inRange, ht] at hc; omega
    · intro ht; simp [Reader.inRange, ht] at hc

/-! ### rows -/

theorem forall₂_snoc {α β : Type} {P : α → β → Prop} {l : List α} {m : List β} {a : α} {b : β}
    (h : List.Forall₂ P l m) (hab : P a b) : List.Forall₂ P (l ++ [a]) (m ++ [b]) := by
  induction h with
  | nil => exact .cons hab .nil
  | cons h1 _ ih => exact .cons h1 ih

theorem forall₂_append {α β : Type} {P : α → β → Prop} {l l' : List α} {m m' : List β}
    (h : List.Forall₂ P l m) (h' : List.Forall₂ P l' m') : List.Forall₂ P (l ++ l') (m ++ m') := by
  induction h with
  | nil => exact h'
  | cons h1 _ ih => exact .cons h1 ih

/-- The columns hold the lines `ls`. -/
def ColsOk (cd : Codec F D) (fd : Byte) (sel : List (Nat × Ty)) (ls : List Bytes) (cols : List (List (Cell F D))) : Prop :=
  List.Forall₂ (fun (s : Nat × Ty) col => List.Forall₂ (fun line v => ReadAs cd fd s.1 s.2 line v) ls col) sel cols

theorem colsOk_empty (cd : Codec F D) (fd : Byte) (sel : List (Nat × Ty)) :
    ColsOk cd fd sel [] (sel.map (fun _ => ([] : List (Cell F D)))) := by
  induction sel with
  | nil => exact .nil
  | cons s sel ih => exact .cons .nil ih

theorem colsOk_push {cd : Codec F D} {fd : Byte} {sel : List (Nat × Ty)} {ls : List Bytes} {cols : List (List (Cell F D))}
    {line : Bytes} {vs : List (Cell F D)} (h : ColsOk cd fd sel ls cols)
    (hv : List.Forall₂ (fun (s : Nat × Ty) v => ReadAs cd fd s.1 s.2 line v) sel vs) :
    ColsOk cd fd sel (ls ++ [line]) (List.zipWith (fun c v => c ++ [v]) cols vs) := by
  induction h generalizing vs with
  | nil => cases hv; exact .nil
  | cons h1 _ ih =>
    cases hv with
    | cons g1 g2 => exact .cons (forall₂_snoc h1 g1) (ih g2)

theorem parseRow_ok {cd : Codec F D} {fd : Byte} {line : Bytes} {sel : List (Nat × Ty)}
    (h : ∀ s ∈ sel, ∃ v, ReadAs cd fd s.1 s.2 line v) :
    ∃ vs, parseRow cd (strSplit fd line) sel = .ok vs ∧
      List.Forall₂ (fun (s : Nat × Ty) v => ReadAs cd fd s.1 s.2 line v) sel vs := by
  induction sel with
  | nil => exact ⟨[], rfl, .nil⟩
  | cons s sel ih =>
    obtain ⟨i, t⟩ := s
    obtain ⟨v, f, hf, hv⟩ := h (i, t) (by simp)
    obtain ⟨vs, e, hvs⟩ := ih (fun s hs => h s (by simp [hs]))
    refine ⟨v :: vs, ?_, .cons ⟨f, hf, hv⟩ hvs⟩
    simp only [parseRow, hf, hv, e]

theorem rowLoop_spec {cd : Codec F D} {data : Bytes} {R : List Bytes} (n : Nat) (r : Reader) (count : Nat)
    (cols : List (List (Cell F D))) (pre : List Bytes)
    (hin : Ok r.ld data (R.drop r.cur) r.input) (hc : r.cur ≤ R.length)
    (hrow : ∀ line ∈ R, RowOk cd r.fd r.headers.length r.sel line) (hcols : ColsOk cd r.fd r.sel pre cols) :
    ∃ inp c cols', rowLoop cd n r count cols = ({ r with input := inp, cur := c }, .ok (count + (c - r.cur), cols')) ∧
      c = min (r.cur + n) R.length ∧ Ok r.ld data (R.drop c) inp ∧
      ColsOk cd r.fd r.sel (pre ++ (R.drop r.cur).take n) cols' ∧ (c < r.cur + n → inp.eof = true) := by
  induction n generalizing r count cols pre with
  | zero => exact ⟨r.input, r.cur, cols, by simp [rowLoop], by omega, hin, by simpa using hcols, by omega⟩
  | succ n ih =>
    simp only [rowLoop, Reader.nextLine]
    cases hR : R.drop r.cur with
    | nil =>
      rw [hR] at hin
      obtain ⟨h1, h2, h3⟩ := getLine_nil hin
      rw [h1]
      have hl := (drop_nil_iff hc).mp hR
      exact ⟨_, r.cur, cols, by simp, by omega, by rw [hR]; exact h2, by simpa using hcols, fun _ => h3⟩
    | cons l ls =>
      rw [hR] at hin
      obtain ⟨h1, h2⟩ := getLine_cons hin
      rw [h1]
      have hlt : r.cur < R.length := by
        by_contra hge
        rw [List.drop_eq_nil_of_le (by omega)] at hR; simp at hR
      have hls : R.drop (r.cur + 1) = ls := by rw [← List.drop_drop, hR]; rfl
      have hmem : l ∈ R := List.mem_of_mem_drop (by rw [hR]; simp)
      obtain ⟨hw, hv⟩ := hrow l hmem
      obtain ⟨vs, e, hvs⟩ := parseRow_ok hv
      simp only [Option.map_some, hw, ne_eq, not_true_eq_false, if_false, e]
      obtain ⟨inp, c, cols', e1, e2, e3, e4, e5⟩ := ih { r with input := (r.input.getLine r.ld).2, cur := r.cur + 1 }
        (count + 1) (List.zipWith (fun c v => c ++ [v]) cols vs) (pre ++ [l])
        (by show Ok r.ld data (R.drop (r.cur + 1)) _; rw [hls]; exact h2) (by show r.cur + 1 ≤ _; omega)
        hrow (colsOk_push hcols hvs)
      simp only at e1 e2 e3 e4 e5
      refine ⟨inp, c, cols', ?_, ?_, e3, ?_, ?_⟩
      · rw [e1]; congr 3; omega
      · rw [e2]; congr 1; omega
      · rw [hls] at e4; simpa using e4
      · intro hh; exact e5 (by omega)

theorem appendCols_ok (b : Batch F D) (n : Nat) (hb : b.rows = 0 ∨ b.rows = n) (cols : List (List (Cell F D)))
    (h : ∀ c ∈ cols, c.length = n) :
    b.appendCols cols = .ok ⟨if cols = [] then b.rows else n, b.cols ++ cols⟩ := by
  induction cols generalizing b with
  | nil => simp [Batch.appendCols]
  | cons c cols ih =>
    have hcl := h c (by simp)
    simp only [Batch.appendCols, Batch.appendCol, hcl]
    rw [if_pos hb]
    simp only
    rw [ih ⟨n, b.cols ++ [c]⟩ (Or.inr rfl) (fun c' hc' => h c' (by simp [hc']))]
    simp

theorem colsOk_length {cd : Codec F D} {fd : Byte} {sel : List (Nat × Ty)} {ls : List Bytes} {cols : List (List (Cell F D))}
    (h : ColsOk cd fd sel ls cols) : ∀ c ∈ cols, c.length = ls.length := by
  induction h with
  | nil => simp
  | cons h1 _ ih =>
    intro c hc
    simp only [List.mem_cons] at hc
    rcases hc with rfl | hc
    · exact h1.length_eq.symm
    · exact ih c hc

/-- `NextRow` returns the rows from the current one on and keeps the invariant. -/
theorem nextRow_spec {cd : Codec F D} {data : Bytes} {R : List Bytes} {r : Reader} (h : Inv data R r)
    (hrow : ∀ line ∈ R, RowOk cd r.fd r.headers.length r.sel line) (k : Nat) :
    ∃ b, (r.nextRow cd k).2 = .ok (decide (((R.drop r.cur).take k).length ≠ 0), b) ∧
      (((R.drop r.cur).take k).length ≠ 0 → IsBatch cd r.fd r.sel ((R.drop r.cur).take k) b) ∧
      (b.rows = ((R.drop r.cur).take k).length) ∧
      Inv data R (r.nextRow cd k).1 ∧ Same r (r.nextRow cd k).1 ∧
      (r.nextRow cd k).1.cur = min (r.cur + k) R.length ∧
      (R.length < r.cur + k → (r.nextRow cd k).1.total = some R.length ∨ r.input.eof = true) ∧
      ((r.nextRow cd k).1.input.eof = true → (r.nextRow cd k).1.total = some R.length ∨ (r.nextRow cd k).1 = r) := by
  unfold Reader.nextRow
  by_cases he : r.input.eof = true
  · rw [if_pos he]
    have hn := h.inp.eof_nil he
    have hcl := (drop_nil_iff h.cur_le).mp hn
    refine ⟨.empty, by simp [hn], by simp [hn], by simp [hn, Batch.empty], h, Same.refl r, ?_, fun _ => Or.inr he, fun _ => Or.inr rfl⟩
    show r.cur = _; omega
  · rw [if_neg he]
    obtain ⟨inp, c, cols, e1, e2, e3, e4, e5⟩ := rowLoop_spec (cd := cd) (data := data) (R := R) k r 0 (r.sel.map (fun _ => []))
      [] h.inp h.cur_le hrow (colsOk_empty cd r.fd r.sel)
    rw [e1]
    simp only [List.nil_append, Nat.zero_add] at e4 ⊢
    have hcnt : c - r.cur = ((R.drop r.cur).take k).length := by
      rw [List.length_take, List.length_drop]; have := h.cur_le; omega
    have hinv : Inv data R { r with input := inp, cur := c } :=
      ⟨e3, by show c ≤ _; omega, h.tot, h.map_ok, h.map_zero⟩
    have hr1 : ∃ r1, (if c - r.cur = k then ({ r with input := inp, cur := c } : Reader).updateRowMap
        else { r with input := inp, cur := c }) = r1 ∧ Inv data R r1 ∧ Same r r1 ∧ r1.cur = c ∧ r1.input = inp := by
      refine ⟨_, rfl, ?_⟩
      split
      · have hf := updateRowMap_fields { r with input := inp, cur := c }
        have hs := updateRowMap_same { r with input := inp, cur := c }
        exact ⟨updateRowMap_inv hinv, ⟨hs.fd, hs.ld, hs.bs, hs.hs, hs.sel⟩, hf.1, hf.2.1⟩
      · exact ⟨hinv, ⟨rfl, rfl, rfl, rfl, rfl⟩, rfl, rfl⟩
    obtain ⟨r1, er1, hi1, hs1, hc1, hin1⟩ := hr1
    rw [er1]
    have hi2 := noteTotal_inv hi1
    have hs2 := Same.trans hs1 (noteTotal_same r1)
    have hc2 : r1.noteTotal.cur = c := (noteTotal_fields r1).1.trans hc1
    have htot : R.length < r.cur + k → r1.noteTotal.total = some R.length := by
      intro hlt
      have : inp.eof = true := e5 (by omega)
      have hcR : c = R.length := by omega
      unfold Reader.noteTotal
      rw [hin1, if_pos this]
      show some r1.cur = _
      rw [hc1, hcR]
    have htot2 : r1.noteTotal.input.eof = true → r1.noteTotal.total = some R.length := by
      intro hh
      have h1 : r1.input.eof = true := by rw [(noteTotal_fields r1).2] at hh; exact hh
      have h2 := (drop_nil_iff hi1.cur_le).mp (hi1.inp.eof_nil h1)
      unfold Reader.noteTotal
      rw [if_pos h1]
      show some r1.cur = _
      rw [h2]
    have hcond : (c - r.cur != 0) = decide (((R.drop r.cur).take k).length ≠ 0) := by
      rw [hcnt]; simp [bne, Bool.beq_eq_decide_eq]
    by_cases hsel : r1.noteTotal.sel.isEmpty = true
    · rw [if_pos hsel]
      have hsel' : r.sel = [] := by
        rw [hs2.sel] at hsel; simpa using hsel
      refine ⟨⟨c - r.cur, []⟩, by simp [hcond], ?_, hcnt, hi2, hs2, hc2.trans e2, fun hh => Or.inl (htot hh),
        fun hh => Or.inl (htot2 hh)⟩
      intro _
      refine ⟨hcnt, ?_⟩
      rw [hsel']; exact .nil
    · rw [if_neg hsel]
      have hlen := colsOk_length e4
      have ha := appendCols_ok (Batch.empty : Batch F D) ((R.drop r.cur).take k).length (Or.inl rfl) cols hlen
      rw [ha]
      have hne : cols ≠ [] := by
        rintro rfl
        have := e4.length_eq
        rw [hs2.sel] at hsel
        simp only [List.length_nil] at this
        exact hsel (by simp [List.length_eq_zero_iff.mp this])
      simp only [hne, if_false]
      refine ⟨⟨((R.drop r.cur).take k).length, [] ++ cols⟩, by simp [hcond, Batch.empty], ?_, rfl, hi2, hs2, hc2.trans e2, 
        fun hh => Or.inl (htot hh),
        fun hh => Or.inl (htot2 hh)⟩
      intro _
      exact ⟨rfl, e4⟩

/-! ### Init -/

theorem lines_length_le (ld : Byte) (data : Bytes) : (lines ld data).length ≤ data.length := by
  induction data with
  | nil => simp [lines]
  | cons c cs ih =>
    simp only [lines]
    split
    · simp only [List.length_cons]; omega
    · split
      · simp
      · rename_i l ls e
        rw [e] at ih
        simp only [List.length_cons] at ih ⊢; omega

theorem countLoop_spec {data : Bytes} {R : List Bytes} (fuel : Nat) (r : Reader) (h : Inv data R r)
    (hf : R.length - r.cur < fuel) (hb : r.batchSize ≠ 0 ∨ R.length = r.cur) :
    ∃ r', countLoop fuel r = .ok r' ∧ Inv data R r' ∧ Same r r' ∧ r'.cur = R.length := by
  induction fuel generalizing r with
  | zero => omega
  | succ n ih =>
    simp only [countLoop, Reader.nextLineRaw]
    cases hR : R.drop r.cur with
    | nil =>
      have hin := h.inp
      rw [hR] at hin
      obtain ⟨h1, h2, h3⟩ := getLine_nil hin
      rw [h1]
      have hl := (drop_nil_iff h.cur_le).mp hR
      exact ⟨_, rfl, ⟨by show Ok r.ld data (R.drop r.cur) _; rw [hR]; exact h2, h.cur_le, h.tot, h.map_ok, h.map_zero⟩,
        ⟨rfl, rfl, rfl, rfl, rfl⟩, hl⟩
    | cons l ls =>
      have hin := h.inp
      rw [hR] at hin
      obtain ⟨h1, h2⟩ := getLine_cons hin
      rw [h1]
      have hlt : r.cur < R.length := by
        by_contra hge
        rw [List.drop_eq_nil_of_le (by omega)] at hR; simp at hR
      have hls : R.drop (r.cur + 1) = ls := by rw [← List.drop_drop, hR]; rfl
      have hb' : r.batchSize ≠ 0 := by
        rcases hb with hb | hb
        · exact hb
        · omega
      simp only [hb', if_false]
      have hinv : Inv data R { r with input := (r.input.getLine r.ld).2, cur := r.cur + 1 } :=
        ⟨by show Ok r.ld data (R.drop (r.cur + 1)) _; rw [hls]; exact h2, hlt, h.tot, h.map_ok, h.map_zero⟩
      generalize hr1 : ({ r with input := (r.input.getLine r.ld).2, cur := r.cur + 1 } : Reader) = r1 at hinv
      have hs1 : Same r r1 := by rw [← hr1]; exact ⟨rfl, rfl, rfl, rfl, rfl⟩
      have hc1 : r1.cur = r.cur + 1 := by rw [← hr1]
      split
      · have hs2 := hs1.trans (updateRowMap_same r1)
        have hc2 := (updateRowMap_fields r1).1.trans hc1
        obtain ⟨r', f1, f2, f3, f4⟩ := ih r1.updateRowMap (updateRowMap_inv hinv) (by rw [hc2]; omega)
          (Or.inl (by rw [hs2.bs]; exact hb'))
        exact ⟨r', f1, f2, hs2.trans f3, f4⟩
      · obtain ⟨r', f1, f2, f3, f4⟩ := ih r1 hinv (by rw [hc1]; omega) (Or.inl (by rw [hs1.bs]; exact hb'))
        exact ⟨r', f1, f2, hs1.trans f3, f4⟩

theorem countLoop_ub {data : Bytes} {R : List Bytes} (fuel : Nat) (r : Reader) (h : Inv data R r)
    (hb : r.batchSize = 0) (hlt : r.cur < R.length) : countLoop (fuel + 1) r = .ub := by
  simp only [countLoop, Reader.nextLineRaw]
  cases hR : R.drop r.cur with
  | nil => have := (drop_nil_iff h.cur_le).mp hR; omega
  | cons l ls =>
    have hin := h.inp
    rw [hR] at hin
    rw [(getLine_cons hin).1]
    simp [hb]

/-- The reader just before the optional `CountLines`. -/
def preReader (fd ld : Byte) (bs : Nat) (data : Bytes) (hs : List Bytes) (sel : List (Nat × Ty)) : Reader :=
  Reader.updateRowMap ⟨fd, ld, bs, ((Stream.opened data).getLine ld).2, hs, sel, 0, none, []⟩

theorem pre_inv (fd ld : Byte) (bs : Nat) (data hd : Bytes) (R : List Bytes) (hs : List Bytes) (sel : List (Nat × Ty))
    (hL : lines ld data = hd :: R) : Inv data R (preReader fd ld bs data hs sel) := by
  have h0 : Ok ld data (hd :: R) (Stream.opened data) := ⟨rfl, Nat.zero_le _, by simpa [Stream.opened] using hL, by simp [Stream.opened],
    by simp [Stream.opened]⟩
  obtain ⟨_, h2⟩ := getLine_cons h0
  refine ⟨h2, Nat.zero_le _, Or.inl rfl, ?_, ?_⟩
  · intro e he
    simp only [preReader, Reader.updateRowMap, List.any_nil, Bool.false_eq_true, if_false, mapInsert, List.mem_singleton] at he
    subst he
    exact ⟨Nat.zero_le _, h2.pos_le, h2.rest⟩
  · exact ⟨_, [], rfl⟩

theorem pre_same (fd ld : Byte) (bs : Nat) (data : Bytes) (hs : List Bytes) (sel : List (Nat × Ty)) :
    (preReader fd ld bs data hs sel).fd = fd ∧ (preReader fd ld bs data hs sel).ld = ld ∧
    (preReader fd ld bs data hs sel).batchSize = bs ∧ (preReader fd ld bs data hs sel).headers = hs ∧
    (preReader fd ld bs data hs sel).sel = sel ∧ (preReader fd ld bs data hs sel).cur = 0 ∧
    (preReader fd ld bs data hs sel).total = none ∧ (preReader fd ld bs data hs sel).input.data = data := by
  refine ⟨rfl, rfl, rfl, rfl, rfl, rfl, rfl, ?_⟩
  simp only [preReader, Reader.updateRowMap, List.any_nil, Bool.false_eq_true, if_false]
  unfold Stream.getLine
  split
  · rfl
  · simp only
    split
    · rfl
    · split <;> rfl

theorem open_eq (fd ld : Byte) (bs : Nat) (schema : Schema) (uho cl : Bool) (data hd : Bytes) (R hs : List Bytes)
    (sel : List (Nat × Ty)) (hL : lines ld data = hd :: R) (hp : parseHeader [] (strSplit fd hd) = some hs)
    (hsel : selectFeatures hs schema = some sel) :
    openReader fd ld bs schema uho cl data =
      match (if cl then (preReader fd ld bs data hs (if uho then sortSel sel else sel)).countLines
        else .ok (preReader fd ld bs data hs (if uho then sortSel sel else sel))) with
        | .throw => .throw
        | .ub => .ub
        | .ok r3 => match r3.seek 0 with
          | (r4, .ok ()) => .ok r4
          | (_, .throw) => .throw
          | (_, .ub) => .ub := by
  have h0 : Ok ld data (hd :: R) (Stream.opened data) := ⟨rfl, Nat.zero_le _, by simpa [Stream.opened] using hL, by simp [Stream.opened],
    by simp [Stream.opened]⟩
  obtain ⟨h1, _⟩ := getLine_cons h0
  unfold openReader
  simp only [Reader.nextLine, h1, Option.map_some, hp, hsel]
  rfl

theorem open_ok (fd ld : Byte) (bs : Nat) (schema : Schema) (uho cl : Bool) (data hd : Bytes) (R hs : List Bytes)
    (sel : List (Nat × Ty)) (hL : lines ld data = hd :: R) (hp : parseHeader [] (strSplit fd hd) = some hs)
    (hsel : selectFeatures hs schema = some sel) (hcl : cl = true → bs ≠ 0 ∧ R ≠ []) :
    ∃ r, openReader fd ld bs schema uho cl data = .ok r ∧ Inv data R r ∧ r.cur = 0 ∧ r.fd = fd ∧ r.ld = ld ∧
      r.batchSize = bs ∧ r.headers = hs ∧ r.sel = (if uho then sortSel sel else sel) ∧
      (cl = true → r.total = some R.length) := by
  rw [open_eq fd ld bs schema uho cl data hd R hs sel hL hp hsel]
  have hi := pre_inv fd ld bs data hd R hs (if uho then sortSel sel else sel) hL
  obtain ⟨p1, p2, p3, p4, p5, p6, p7, p8⟩ := pre_same fd ld bs data hs (if uho then sortSel sel else sel)
  generalize preReader fd ld bs data hs (if uho then sortSel sel else sel) = r2 at *
  cases cl with
  | false =>
    simp only [Bool.false_eq_true, if_false]
    obtain ⟨s1, s2, s3, s4, s5, s6, s7⟩ := seek_spec hi 0
    have hok := s7 p7 (Nat.zero_le _)
    generalize r2.seek 0 = o at *
    obtain ⟨r4, o⟩ := o
    simp only at *
    subst hok
    exact ⟨r4, rfl, s1, s6 rfl, s2.fd.trans p1, s2.ld.trans p2, s2.bs.trans p3, s2.hs.trans p4, s2.sel.trans p5, by simp⟩
  | true =>
    obtain ⟨hb, hR⟩ := hcl rfl
    simp only [if_true, Reader.countLines]
    have hlen : R.length - r2.cur < r2.input.data.length + 1 := by
      have := lines_length_le ld data
      rw [hL] at this; simp only [List.length_cons] at this
      rw [p8]; omega
    obtain ⟨r3, c1, c2, c3, c4⟩ := countLoop_spec _ r2 hi hlen (Or.inl (by rw [p3]; exact hb))
    rw [c1]
    simp only
    have hi3 : Inv data R { r3 with total := some r3.cur } := ⟨c2.inp, c2.cur_le, Or.inr (by rw [← c4]), c2.map_ok, c2.map_zero⟩
    obtain ⟨s1, s2, s3, s4, s5, s6, s7⟩ := seek_spec hi3 0
    have hpos : 0 < R.length := by cases R; exact absurd rfl hR; simp
    have hok := (s3 hpos).1
    have htot : (Reader.seek { r3 with total := some r3.cur } 0).1.total = some R.length := by
      rcases s1.tot with h | h
      · exfalso
        unfold Reader.seek at h
        split at h
        · split at h
          · simp at h
          · rename_i k p hkp
            simp only at h
            obtain ⟨k', p', e1, e2, e3⟩ := seek_entry hi3 0
            have e1' := hkp.symm.trans e1
            simp only [Option.some.injEq, Prod.mk.injEq] at e1'
            obtain ⟨rfl, rfl⟩ := e1'
            obtain ⟨inp, c, f1, f2, f3⟩ := seekLoop_spec (data := data) (R := R) (0 - k)
              { r3 with total := some r3.cur, input := r3.input.seekg p, cur := k }
              (seekg_ok c2.inp.data_eq e3) e3.1
            rw [f1] at h
            simp at h
        · simp at h
      · exact h
    generalize Reader.seek { r3 with total := some r3.cur } 0 = o at *
    obtain ⟨r4, o⟩ := o
    simp only at *
    subst hok
    have c3' : Same r2 r4 := c3.trans ⟨s2.fd, s2.ld, s2.bs, s2.hs, s2.sel⟩
    exact ⟨r4, rfl, s1, s6 rfl, c3'.fd.trans p1, c3'.ld.trans p2, c3'.bs.trans p3, c3'.hs.trans p4, c3'.sel.trans p5,
      fun _ => htot⟩

theorem seek_zero_eof (r : Reader) (h : (r.seek 0).2 = .ok ()) : (r.seek 0).1.input.eof = false := by
  unfold Reader.seek at h ⊢
  split
  · rename_i hc
    rw [if_pos hc] at h
    split
    · rename_i hn; rw [hn] at h; simp at h
    · rw [show ∀ k, 0 - k = 0 by omega]
      simp [seekLoop, Stream.seekg]
  · rename_i hc
    rw [if_neg hc] at h; simp at h

theorem open_not_eof (fd ld : Byte) (bs : Nat) (schema : Schema) (uho cl : Bool) (data : Bytes) (r : Reader)
    (h : openReader fd ld bs schema uho cl data = .ok r) : r.input.eof = false := by
  unfold openReader at h
  simp only at h
  split at h
  · simp at h
  · split at h
    · simp at h
    · split at h
      · simp at h
      · split at h
        · simp at h
        · simp at h
        · split at h
          · rename_i e
            simp only [Out.ok.injEq] at h
            subst h
            have := seek_zero_eof _ (by rw [e])
            rw [e] at this; exact this
          · simp at h
          · simp at h

/-- What a successful `Init` says about the file and the reader. -/
theorem open_inv (fd ld : Byte) (bs : Nat) (schema : Schema) (uho cl : Bool) (data : Bytes) (r : Reader)
    (h : openReader fd ld bs schema uho cl data = .ok r) :
    ∃ hd R hs sel, lines ld data = hd :: R ∧ parseHeader [] (strSplit fd hd) = some hs ∧
      selectFeatures hs schema = some sel ∧ (cl = true → bs ≠ 0 ∧ R ≠ []) := by
  cases hL : lines ld data with
  | nil =>
    exfalso
    have h0 : Ok ld data [] (Stream.opened data) := ⟨rfl, Nat.zero_le _, by simpa [Stream.opened] using hL, by simp [Stream.opened],
      by simp [Stream.opened]⟩
    unfold openReader at h
    simp only [Reader.nextLine, (getLine_nil h0).1, Option.map_none] at h
    simp at h
  | cons hd R =>
    have h0 : Ok ld data (hd :: R) (Stream.opened data) := ⟨rfl, Nat.zero_le _, by simpa [Stream.opened] using hL, by simp [Stream.opened],
      by simp [Stream.opened]⟩
    cases hp : parseHeader [] (strSplit fd hd) with
    | none =>
      exfalso
      unfold openReader at h
      simp only [Reader.nextLine, (getLine_cons h0).1, Option.map_some, hp] at h
      simp at h
    | some hs =>
      cases hsel : selectFeatures hs schema with
      | none =>
        exfalso
        unfold openReader at h
        simp only [Reader.nextLine, (getLine_cons h0).1, Option.map_some, hp, hsel] at h
        simp at h
      | some sel =>
        refine ⟨hd, R, hs, sel, rfl, hp, hsel, ?_⟩
        rintro rfl
        rw [open_eq fd ld bs schema uho true data hd R hs sel hL hp hsel] at h
        have hi := pre_inv fd ld bs data hd R hs (if uho then sortSel sel else sel) hL
        obtain ⟨p1, p2, p3, p4, p5, p6, p7, p8⟩ := pre_same fd ld bs data hs (if uho then sortSel sel else sel)
        generalize preReader fd ld bs data hs (if uho then sortSel sel else sel) = r2 at *
        simp only [if_true, Reader.countLines] at h
        have hRne : R ≠ [] := by
          rintro rfl
          obtain ⟨r3, c1, c2, c3, c4⟩ := countLoop_spec (R := []) (r2.input.data.length + 1) r2 hi (by simp)
            (Or.inr (by rw [p6]; rfl))
          rw [c1] at h
          simp only [Reader.seek, Reader.inRange] at h
          rw [c4] at h
          simp at h
        refine ⟨?_, hRne⟩
        intro hb
        have hpos : 0 < R.length := by cases R; exact absurd rfl hRne; simp
        rw [countLoop_ub _ r2 hi (by rw [p3]; exact hb) (by rw [p6]; exact hpos)] at h
        simp at h

end Yacl.Csv
