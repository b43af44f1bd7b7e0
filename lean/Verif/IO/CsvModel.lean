/-! Model of the CSV writer and reader: yacl/io/rw/{csv_writer,csv_reader}.cc, yacl/io/rw/schema.h, and of the input
streams they use, yacl/io/stream/{file_io,mem_io}.cc. -/
namespace Yacl.Csv

abbrev Byte := UInt8
abbrev Bytes := List UInt8

/-- How a call ends: normally, with an exception, or with undefined behaviour. -/
inductive Out (α : Type)
  | ok (a : α)
  | throw
  | ub
deriving Repr, DecidableEq

/-! ### Input streams -/

/-- The state of an input stream: contents, read position and the two `iostate` bits the reader looks at. -/
structure Stream where
  data : Bytes
  pos : Nat
  eof : Bool
  fail : Bool
deriving Repr, DecidableEq

/-- A freshly opened stream (file_io.cc L38-50, mem_io.cc L23-26). -/
def Stream.opened (data : Bytes) : Stream := ⟨data, 0, false, false⟩

/-- `std::getline(in, *ret, delim)` as called by file_io.cc L58-68 and mem_io.cc L36-39, followed by the stream's
conversion to bool: `some line` when it is true. On a stream that is not good nothing is extracted; otherwise bytes are
extracted up to and including the delimiter, or up to the end of the data (then `eofbit` is set, and `failbit` as well if
nothing was extracted). file_io.cc swallows the resulting exception when `eofbit` is set. Read errors of the disk are not
modelled. -/
def Stream.getLine (s : Stream) (delim : Byte) : Option Bytes × Stream :=
  if s.eof || s.fail then (none, { s with fail := true })
  else
    let rest := s.data.drop s.pos
    let line := rest.takeWhile (· != delim)
    if line.length < rest.length then (some line, { s with pos := s.pos + line.length + 1 })
    else if line.isEmpty then (none, { s with pos := s.data.length, eof := true, fail := true })
    else (some line, { s with pos := s.data.length, eof := true })

/-- file_io.cc L79-88, mem_io.cc L46-51 `Seekg`: clears the state bits, then moves. -/
def Stream.seekg (s : Stream) (p : Nat) : Stream := { s with pos := p, eof := false, fail := false }

/-- file_io.cc L90-104, mem_io.cc L53-60 `Tellg`: the state bits are cleared for the call and restored. -/
def Stream.tellg (s : Stream) : Nat := s.pos

/-- file_io.cc L119-123, mem_io.cc L101-105 `Spawn`: a new stream on the same data, moved to the same position. -/
def Stream.spawn (s : Stream) : Stream := (Stream.opened s.data).seekg s.tellg

/-! ### Text helpers -/

/-- `absl::StrSplit(text, char)`: the pieces between the delimiters; one more piece than there are delimiters. -/
def strSplit (d : Byte) : Bytes → List Bytes
  | [] => [[]]
  | c :: cs =>
    if c = d then [] :: strSplit d cs
    else match strSplit d cs with
      | [] => [[c]]
      | l :: ls => (c :: l) :: ls

/-- `absl::ascii_isspace`. -/
def isSpace (b : Byte) : Bool := b == 32 || (9 ≤ b && b ≤ 13)

/-- `absl::StripAsciiWhitespace`. -/
def strip (s : Bytes) : Bytes := ((s.dropWhile isSpace).reverse.dropWhile isSpace).reverse

/-! ### Columns -/

/-- schema.h L119-123 `Schema::Type`. -/
inductive Ty
  | str | flt | dbl
deriving Repr, DecidableEq

/-- One value of a column; `F` and `D` stand for `float` and `double`. -/
inductive Cell (F D : Type)
  | str (s : Bytes)
  | flt (f : F)
  | dbl (d : D)
deriving Repr, DecidableEq

/-- float.h L39-64: how floats are printed (for the writer's precision) and parsed. Floating point itself is not modelled:
these are arbitrary functions. -/
structure Codec (F D : Type) where
  fmtF : F → Bytes
  fmtD : D → Bytes
  parseF : Bytes → Option F
  parseD : Bytes → Option D

variable {F D : Type}

/-- The type of a value. -/
def Cell.ty : Cell F D → Ty
  | .str _ => .str
  | .flt _ => .flt
  | .dbl _ => .dbl

/-- The text the writer emits for a value, csv_writer.cc L69-89. -/
def fmtCell (c : Codec F D) : Cell F D → Bytes
  | .str s => s
  | .flt f => c.fmtF f
  | .dbl d => c.fmtD d

/-- The value the reader stores for a field of a given type, csv_reader.cc L411-447; `none` when `FloatFromString` fails. -/
def parseCell (c : Codec F D) (t : Ty) (s : Bytes) : Option (Cell F D) :=
  match t with
  | .str => some (.str s)
  | .flt => (c.parseF s).map .flt
  | .dbl => (c.parseD s).map .dbl

/-- schema.h L41-115 `ColumnVectorBatch`: the row count and the columns. -/
structure Batch (F D : Type) where
  rows : Nat
  cols : List (List (Cell F D))
deriving Repr, DecidableEq

/-- schema.h L54-57 `Clear`. -/
def Batch.empty : Batch F D := ⟨0, []⟩

/-- schema.h L92-103 `AppendCol`: throws unless the batch has no rows yet or the column has as many. -/
def Batch.appendCol (b : Batch F D) (col : List (Cell F D)) : Out (Batch F D) :=
  if b.rows = 0 ∨ b.rows = col.length then .ok ⟨col.length, b.cols ++ [col]⟩ else .throw

/-- csv_reader.cc L460-464: all the columns in turn. -/
def Batch.appendCols (b : Batch F D) : List (List (Cell F D)) → Out (Batch F D)
  | [] => .ok b
  | c :: cs => match b.appendCol c with
    | .ok b => b.appendCols cs
    | .throw => .throw
    | .ub => .ub

/-! ### Writer -/

/-- schema.h L118-126 `Schema`, a list of (name, type). -/
abbrev Schema := List (Bytes × Ty)

/-- csv_writer.cc L29-43: `fmt::join(names, field_delimiter)`. -/
def joinWith (d : Byte) : List Bytes → Bytes
  | [] => []
  | [a] => a
  | a :: b :: r => a ++ d :: joinWith d (b :: r)

/-- csv_writer.cc L49-58 `Init`: the header line. -/
def writerInit (fd ld : Byte) (sc : Schema) : Bytes := joinWith fd (sc.map (·.1)) ++ [ld]

/-- schema.h L78-82 `At<S>(row, col)`: throws when the column holds another type (a column's type is that of its values);
reading past the end of the column is undefined behaviour. -/
def Batch.at (b : Batch F D) (t : Ty) (r c : Nat) : Out (Cell F D) :=
  match b.cols[c]? with
  | none => .ub
  | some col => match col[r]? with
    | none => .ub
    | some v => if v.ty = t then .ok v else .throw

/-- csv_writer.cc L68-93, the inner loop over the columns `c`, `c+1`, ... of row `r`. -/
def writeRow (cd : Codec F D) (fd : Byte) (b : Batch F D) (r : Nat) : Nat → List Ty → Out Bytes
  | _, [] => .ok []
  | c, t :: ts => match b.at t r c with
    | .ok v => match writeRow cd fd b r (c + 1) ts with
      | .ok rest => .ok (fmtCell cd v ++ (if ts.isEmpty then rest else fd :: rest))
      | .throw => .throw
      | .ub => .ub
    | .throw => .throw
    | .ub => .ub

/-- csv_writer.cc L67-95, the outer loop over `n` rows starting at `r`. -/
def writeRows (cd : Codec F D) (fd ld : Byte) (tys : List Ty) (b : Batch F D) : Nat → Nat → Out Bytes
  | _, 0 => .ok []
  | r, n + 1 => match writeRow cd fd b r 0 tys with
    | .ok line => match writeRows cd fd ld tys b (r + 1) n with
      | .ok rest => .ok (line ++ ld :: rest)
      | .throw => .throw
      | .ub => .ub
    | .throw => .throw
    | .ub => .ub

/-- csv_writer.cc L60-97 `Add`: the bytes appended to the output. -/
def writerAdd (cd : Codec F D) (fd ld : Byte) (sc : Schema) (b : Batch F D) : Out Bytes :=
  if b.cols.length = sc.length then writeRows cd fd ld (sc.map (·.2)) b 0 b.rows else .throw

/-- The output after the constructor's checks (csv_writer.cc L36-38), `Init` and a sequence of `Add` calls. -/
def addAll (cd : Codec F D) (fd ld : Byte) (sc : Schema) : Bytes → List (Batch F D) → Out Bytes
  | out, [] => .ok out
  | out, b :: bs => match writerAdd cd fd ld sc b with
    | .ok w => addAll cd fd ld sc (out ++ w) bs
    | .throw => .throw
    | .ub => .ub

def writeAll (cd : Codec F D) (fd ld : Byte) (sc : Schema) (bs : List (Batch F D)) : Out Bytes :=
  if sc.isEmpty then .throw else addAll cd fd ld sc (writerInit fd ld sc) bs

/-! ### Row reader -/

/-- csv_reader.h L119-134: the state of a row reader (`column_reader == false`). `total = none` is `kUnknowTotalRow`.
`rowsMap` is the `std::map` from row number to file position, ascending. -/
structure Reader where
  fd : Byte
  ld : Byte
  batchSize : Nat
  input : Stream
  headers : List Bytes
  sel : List (Nat × Ty)
  cur : Nat
  total : Option Nat
  rowsMap : List (Nat × Nat)
deriving Repr, DecidableEq

/-- `std::map::insert` on the ascending list: no effect when the key is present. -/
def mapInsert : List (Nat × Nat) → Nat → Nat → List (Nat × Nat)
  | [], k, v => [(k, v)]
  | (k', v') :: r, k, v =>
    if k < k' then (k, v) :: (k', v') :: r else if k = k' then (k', v') :: r else (k', v') :: mapInsert r k v

/-- csv_reader.cc L153-160 `UpdateRowMap`. -/
def Reader.updateRowMap (r : Reader) : Reader :=
  if r.rowsMap.any (fun e => decide (r.cur < e.1)) then r
  else { r with rowsMap := mapInsert r.rowsMap r.cur r.input.tellg }

/-- csv_reader.cc L117-125 `NextLine(nullptr)`. -/
def Reader.nextLineRaw (r : Reader) : Option Bytes × Reader :=
  ((r.input.getLine r.ld).1, { r with input := (r.input.getLine r.ld).2 })

/-- csv_reader.cc L117-125 `NextLine(&fields)`. -/
def Reader.nextLine (r : Reader) : Option (List Bytes) × Reader :=
  ((r.input.getLine r.ld).1.map (strSplit r.fd), { r with input := (r.input.getLine r.ld).2 })

/-- csv_reader.cc L132-150: the header names, stripped; rejects empty and repeated ones. -/
def parseHeader (done : List Bytes) : List Bytes → Option (List Bytes)
  | [] => some done
  | h :: hs =>
    if strip h = [] then none
    else if strip h ∈ done then none
    else parseHeader (done ++ [strip h]) hs

/-- csv_reader.cc L74-86: look up each requested feature. -/
def selectFeatures (headers : List Bytes) : Schema → Option (List (Nat × Ty))
  | [] => some []
  | (n, t) :: r =>
    if n ∈ headers then (selectFeatures headers r).map (fun s => (headers.idxOf n, t) :: s) else none

/-- csv_reader.cc L88-91 `std::sort` by column index (indices that occur twice may come out in either order; this is one
of the possible orders). -/
def insertSel (x : Nat × Ty) : List (Nat × Ty) → List (Nat × Ty)
  | [] => [x]
  | y :: r => if x.1 ≤ y.1 then x :: y :: r else y :: insertSel x r

def sortSel (l : List (Nat × Ty)) : List (Nat × Ty) := l.foldr insertSel []

/-- csv_reader.cc L108-113, the loop of `CountLines`. `fuel` bounds the number of iterations; every iteration that does not
end the loop consumes input, so the length of the data plus one is enough (`countLoop_fuel`). A `batch_size` of 0 is
undefined behaviour (`% 0`). -/
def countLoop : Nat → Reader → Out Reader
  | 0, r => .ok r
  | fuel + 1, r => match r.nextLineRaw with
    | (none, r) => .ok r
    | (some _, r) =>
      if r.batchSize = 0 then .ub
      else
        let r := { r with cur := r.cur + 1 }
        countLoop fuel (if r.cur % r.batchSize = 0 then r.updateRowMap else r)

/-- csv_reader.cc L107-115 `CountLines`. -/
def Reader.countLines (r : Reader) : Out Reader :=
  match countLoop (r.input.data.length + 1) r with
  | .ok r => .ok { r with total := some r.cur }
  | o => o

/-- csv_reader.cc L488-490: skip lines until row `index`. -/
def seekLoop : Nat → Reader → Reader
  | 0, r => r
  | n + 1, r => match r.nextLineRaw with
    | (none, r) => r
    | (some _, r) => seekLoop n { r with cur := r.cur + 1 }

/-- csv_reader.cc L480-482: the range check of `Seek`, passed while the number of rows is unknown. -/
def Reader.inRange (r : Reader) (index : Nat) : Bool :=
  match r.total with
  | none => true
  | some t => decide (index < t)

/-- csv_reader.cc L472-495 `Seek` for a row reader: new state (also when it throws) and whether it returned normally. -/
def Reader.seek (r : Reader) (index : Nat) : Reader × Out Unit :=
  if r.inRange index then
    match (r.rowsMap.takeWhile (fun e => decide (e.1 ≤ index))).getLast? with
    | none => (r, .throw)
    | some (k, p) =>
      let r1 := seekLoop (index - k) { r with input := r.input.seekg p, cur := k }
      (r1, if r1.cur = index then .ok () else .throw)
  else (r, .throw)

/-- csv_reader.h L43 / csv_reader.cc L41-49 the constructor and L62-105 `Init` for a row reader. -/
def openReader (fd ld : Byte) (batchSize : Nat) (schema : Schema) (useHeaderOrder countLines : Bool) (data : Bytes) :
    Out Reader :=
  let r0 : Reader := ⟨fd, ld, batchSize, Stream.opened data, [], [], 0, none, []⟩
  match r0.nextLine with
  | (none, _) => .throw
  | (some hs, r1) => match parseHeader [] hs with
    | none => .throw
    | some headers => match selectFeatures headers schema with
      | none => .throw
      | some sel =>
        let r2 := ({ r1 with headers := headers, sel := if useHeaderOrder then sortSel sel else sel }).updateRowMap
        match (if countLines then r2.countLines else .ok r2) with
        | .throw => .throw
        | .ub => .ub
        | .ok r3 => match r3.seek 0 with
          | (r4, .ok ()) => .ok r4
          | (_, .throw) => .throw
          | (_, .ub) => .ub

/-- csv_reader.cc L407-448: the values of the selected features of one line. -/
def parseRow (cd : Codec F D) (fields : List Bytes) : List (Nat × Ty) → Out (List (Cell F D))
  | [] => .ok []
  | (i, t) :: s => match fields[i]? with
    | none => .ub
    | some f => match parseCell cd t f with
      | none => .throw
      | some v => match parseRow cd fields s with
        | .ok vs => .ok (v :: vs)
        | o => o

/-- csv_reader.cc L396-449, the loop of `NextRow`; `n` is the number of rows still wanted. Returns the state (also when it
throws) and the count and columns. -/
def rowLoop (cd : Codec F D) : Nat → Reader → Nat → List (List (Cell F D)) →
    Reader × Out (Nat × List (List (Cell F D)))
  | 0, r, count, cols => (r, .ok (count, cols))
  | n + 1, r, count, cols => match r.nextLine with
    | (none, r) => (r, .ok (count, cols))
    | (some fields, r) =>
      if fields.length ≠ r.headers.length then (r, .throw)
      else
        let r := { r with cur := r.cur + 1 }
        match parseRow cd fields r.sel with
        | .ok vs => rowLoop cd n r (count + 1) (List.zipWith (fun c v => c ++ [v]) cols vs)
        | .throw => (r, .throw)
        | .ub => (r, .ub)

/-- csv_reader.cc L456-458. -/
def Reader.noteTotal (r : Reader) : Reader := if r.input.eof then { r with total := some r.cur } else r

/-- csv_reader.cc L385-470 `NextRow` after `data->Clear()` (L258, L269): new state, return value and batch. -/
def Reader.nextRow (cd : Codec F D) (r : Reader) (k : Nat) : Reader × Out (Bool × Batch F D) :=
  if r.input.eof then (r, .ok (false, .empty))
  else match rowLoop cd k r 0 (r.sel.map (fun _ => [])) with
    | (r, .throw) => (r, .throw)
    | (r, .ub) => (r, .ub)
    | (r, .ok (count, cols)) =>
      let r := if count = k then r.updateRowMap else r
      let r := r.noteTotal
      if r.sel.isEmpty then (r, .ok (count != 0, ⟨count, []⟩))
      else match (Batch.empty : Batch F D).appendCols cols with
        | .ok b => (r, .ok (count != 0, b))
        | .throw => (r, .throw)
        | .ub => (r, .ub)

/-- csv_reader.cc L256-264 `Next(data)`. -/
def Reader.next (cd : Codec F D) (r : Reader) : Reader × Out (Bool × Batch F D) := r.nextRow cd r.batchSize

/-- csv_reader.cc L266-282 `Next(size, data)`. -/
def Reader.nextN (cd : Codec F D) (r : Reader) (k : Nat) : Reader × Out (Bool × Batch F D) :=
  if k = 0 then (r, .throw) else r.nextRow cd k

/-- csv_reader.cc L497-513 `Spawn`. -/
def Reader.spawn (r : Reader) : Reader := { r with input := r.input.spawn }

/-- One call on a reader. After `spawn` the history goes on with the spawned reader. -/
inductive Call
  | next
  | nextN (k : Nat)
  | seek (i : Nat)
  | spawn
deriving Repr, DecidableEq

/-- The state after a call, whether it returned or threw. -/
def Reader.step (cd : Codec F D) (r : Reader) : Call → Reader
  | .next => (r.next cd).1
  | .nextN k => (r.nextN cd k).1
  | .seek i => (r.seek i).1
  | .spawn => r.spawn

def Reader.run (cd : Codec F D) (r : Reader) (h : List Call) : Reader := h.foldl (fun r c => r.step cd c) r

/-! ### Column reader -/

/-- One column file written by `BuildMmapFiles`. Strings are stored as 4 length bytes and the bytes; for floats the file is
kept as the list of values (their in-memory representation is not modelled). -/
inductive ColFile (F D : Type)
  | str (b : Bytes)
  | flt (l : List F)
  | dbl (l : List D)
deriving Repr, DecidableEq

/-- `uint32_t len` written in memory order (little endian). -/
def u32le (n : Nat) : Bytes :=
  [UInt8.ofNat n, UInt8.ofNat (n / 256), UInt8.ofNat (n / 65536), UInt8.ofNat (n / 16777216)]

/-- csv_reader.cc L190-235: append one field to its column file. `uint32_t len = field.size()` keeps the length modulo 2^32,
and only `len` bytes of the field are written. -/
def appendField (cd : Codec F D) (f : ColFile F D) (field : Bytes) : Out (ColFile F D) :=
  match f with
  | .str b =>
    let len := field.length % 4294967296
    .ok (.str (b ++ u32le len ++ field.take len))
  | .flt l => match cd.parseF field with
    | some v => .ok (.flt (l ++ [v]))
    | none => .throw
  | .dbl l => match cd.parseD field with
    | some v => .ok (.dbl (l ++ [v]))
    | none => .throw

/-- csv_reader.cc L186-236 for one line. -/
def appendFields (cd : Codec F D) (fields : List Bytes) : List (Nat × Ty) → List (ColFile F D) → Out (List (ColFile F D))
  | (i, _) :: s, f :: fs => match fields[i]? with
    | none => .ub
    | some x => match appendField cd f x with
      | .ok f' => match appendFields cd fields s fs with
        | .ok fs' => .ok (f' :: fs')
        | o => o
      | .throw => .throw
      | .ub => .ub
  | _, fs => .ok fs

/-- An empty column file of each selected type, csv_reader.cc L170-175. -/
def emptyFile : Ty → ColFile F D
  | .str => .str []
  | .flt => .flt []
  | .dbl => .dbl []

/-- csv_reader.cc L176-237: the loop over the lines (as in `countLoop`, the length of the data plus one is enough fuel).
Result: row count and files. -/
def buildLoop (cd : Codec F D) : Nat → Reader → Nat → List (ColFile F D) → Out (Nat × List (ColFile F D))
  | 0, _, n, fs => .ok (n, fs)
  | fuel + 1, r, n, fs => match r.nextLine with
    | (none, _) => .ok (n, fs)
    | (some fields, r) =>
      if fields.length ≠ r.headers.length then .throw
      else match appendFields cd fields r.sel fs with
        | .ok fs => buildLoop cd fuel r (n + 1) fs
        | .throw => .throw
        | .ub => .ub

/-- A column reader after `Init`: types of the selected columns, their files, `total_rows_` and the current column. -/
structure ColReader (F D : Type) where
  files : List (ColFile F D)
  total : Nat
  cur : Nat
deriving Repr, DecidableEq

/-- csv_reader.cc L62-105 `Init` with `column_reader`, including L162-254 `BuildMmapFiles` and `Seek(0)` (L475: throws if no
column is selected, which L71 has already excluded). -/
def openColReader (cd : Codec F D) (fd ld : Byte) (schema : Schema) (useHeaderOrder : Bool) (data : Bytes) :
    Out (ColReader F D) :=
  let r0 : Reader := ⟨fd, ld, 0, Stream.opened data, [], [], 0, none, []⟩
  match r0.nextLine with
  | (none, _) => .throw
  | (some hs, r1) => match parseHeader [] hs with
    | none => .throw
    | some headers =>
      if schema.isEmpty then .throw
      else match selectFeatures headers schema with
      | none => .throw
      | some sel0 =>
        let sel := if useHeaderOrder then sortSel sel0 else sel0
        match buildLoop cd (data.length + 1) { r1 with headers := headers, sel := sel } 0 (sel.map (fun s => emptyFile s.2)) with
        | .ok (n, fs) => .ok ⟨fs, n, 0⟩
        | .throw => .throw
        | .ub => .ub

/-- Little-endian `uint32_t`, csv_reader.cc L304-305. -/
def readU32 (b : Bytes) : Nat :=
  match b with
  | a :: b :: c :: d :: _ => a.toNat + 256 * b.toNat + 65536 * c.toNat + 16777216 * d.toNat
  | _ => 0

/-- csv_reader.cc L301-313: decode a string column; each iteration consumes at least four bytes, so the length of the file is
enough fuel. -/
def decodeStrs : Nat → Bytes → Out (List Bytes)
  | 0, b => if b.isEmpty then .ok [] else .throw
  | fuel + 1, b =>
    if b.isEmpty then .ok []
    else if b.length < 4 then .throw
    else
      let len := readU32 b
      let rest := b.drop 4
      if rest.length < len then .throw
      else match decodeStrs fuel (rest.drop len) with
        | .ok l => .ok (rest.take len :: l)
        | o => o

/-- mmapped_file.cc L67-88: mapping an empty file fails (`mmap` with length 0), so the constructor throws. -/
def fileEmpty : ColFile F D → Bool
  | .str b => b.isEmpty
  | .flt l => l.isEmpty
  | .dbl l => l.isEmpty

/-- csv_reader.cc L296-350: the column stored in a file. -/
def decodeFile (total : Nat) : ColFile F D → Out (List (Cell F D))
  | .str b => match decodeStrs b.length b with
    | .ok l => if l.length = total then .ok (l.map .str) else .throw
    | .throw => .throw
    | .ub => .ub
  | .flt l => if l.length = total then .ok (l.map .flt) else .throw
  | .dbl l => if l.length = total then .ok (l.map .dbl) else .throw

/-- csv_reader.cc L284-353 `NextCol`: state (the index is advanced before anything can throw), and return value and batch. -/
def ColReader.nextCol (r : ColReader F D) (b : Batch F D) : ColReader F D × Out (Bool × Batch F D) :=
  match r.files[r.cur]? with
  | none => (r, .ok (false, b))
  | some f =>
    let r' := { r with cur := r.cur + 1 }
    if fileEmpty f then (r', .throw)
    else match decodeFile r.total f with
      | .ok col => match b.appendCol col with
        | .ok b => (r', .ok (true, b))
        | .throw => (r', .throw)
        | .ub => (r', .ub)
      | .throw => (r', .throw)
      | .ub => (r', .ub)

/-- csv_reader.cc L271-277: up to `n` columns. -/
def ColReader.nextLoop : Nat → ColReader F D → Nat → Batch F D → ColReader F D × Out (Bool × Batch F D)
  | 0, r, count, b => (r, .ok (count != 0, b))
  | n + 1, r, count, b => match r.nextCol b with
    | (r, .ok (true, b)) => nextLoop n r (count + 1) b
    | (r, .ok (false, b)) => (r, .ok (count != 0, b))
    | (r, .throw) => (r, .throw)
    | (r, .ub) => (r, .ub)

/-- csv_reader.cc L266-282 `Next(size, data)` with `column_reader`. -/
def ColReader.nextN (r : ColReader F D) (k : Nat) : ColReader F D × Out (Bool × Batch F D) :=
  if k = 0 then (r, .throw) else ColReader.nextLoop k r 0 .empty

/-- csv_reader.cc L474-478 `Seek` with `column_reader`. -/
def ColReader.seek (r : ColReader F D) (i : Nat) : ColReader F D × Out Unit :=
  if i < r.files.length then ({ r with cur := i }, .ok ()) else (r, .throw)

end Yacl.Csv
