import Verif.IO.CsvModel
import Mathlib.Data.List.Forall2

/-! What a CSV text means, independently of the reader: lines, fields, and when a batch holds given lines. -/
namespace Yacl.Csv

/-- The lines of a text: every delimiter ends a line; bytes after the last delimiter, if any, are a line too. -/
def lines (ld : Byte) : Bytes → List Bytes
  | [] => []
  | c :: cs =>
    if c = ld then [] :: lines ld cs
    else match lines ld cs with
      | [] => [[c]]
      | l :: ls => (c :: l) :: ls

/-- The rows of a CSV text: all lines but the first, which is the header. -/
def dataLines (ld : Byte) (data : Bytes) : List Bytes := (lines ld data).drop 1

variable {F D : Type}

/-- `v` is the value of column `i`, read as type `t`, of the row `line`. -/
def ReadAs (cd : Codec F D) (fd : Byte) (i : Nat) (t : Ty) (line : Bytes) (v : Cell F D) : Prop :=
  ∃ f, (strSplit fd line)[i]? = some f ∧ parseCell cd t f = some v

/-- Batch `b` holds exactly the rows `ls`, in order: one column per selected feature, one value per row. -/
def IsBatch (cd : Codec F D) (fd : Byte) (sel : List (Nat × Ty)) (ls : List Bytes) (b : Batch F D) : Prop :=
  b.rows = ls.length ∧
  List.Forall₂ (fun (s : Nat × Ty) col => List.Forall₂ (fun line v => ReadAs cd fd s.1 s.2 line v) ls col) sel b.cols

/-- A row has as many fields as the header and its selected fields can be converted to the requested types. -/
def RowOk (cd : Codec F D) (fd : Byte) (width : Nat) (sel : List (Nat × Ty)) (line : Bytes) : Prop :=
  (strSplit fd line).length = width ∧ ∀ s ∈ sel, ∃ v, ReadAs cd fd s.1 s.2 line v

end Yacl.Csv
