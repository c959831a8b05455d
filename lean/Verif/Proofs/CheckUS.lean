import Verif.Proofs.ShippedWords
import Verif.Model.HyphUS

/-! # The patterns of ushyphmax.tex, checked

The kernel reads every pattern of the file. -/

namespace Verif.Proofs
open Verif.Go Verif.Model Verif.Spec

/-- The text `.example.` in reverse. -/
def exampleText : List Nat := [46, 101, 108, 112, 109, 97, 120, 101, 46]

/-- The patterns of the file that occur in it (letters and values in reverse): x1a, xam3, 4m1p, 1p2l2. -/
def exampleTable : List (List Nat × List Nat) :=
  [([97, 120], [1, 0]),
   ([109, 97, 120], [3, 0, 0, 0]),
   ([112, 109], [1, 4]),
   ([108, 112], [2, 2, 1])]

/-- Where they are: a piece of the file and a line of it. -/
def exampleLines : List (Nat × List Nat) :=
  [(17, [120, 49, 97]),
   (17, [120, 97, 109, 51]),
   (10, [52, 109, 49, 112]),
   (12, [49, 112, 50, 108, 50])]

/-- What is checked of each pattern. -/
def usCheck (ls vs : List Nat) : Bool :=
  tableOk exampleText exampleTable ls vs

/-- Some of the pieces. -/
def usChunk0 : List (Nat × Nat) :=
  [usFile0, usFile1, usFile2, usFile3, usFile4, usFile5, usFile6, usFile7]

set_option maxRecDepth 100000 in
theorem us_chunk0 : usChunk0.all (pieceOk usCheck) = true := by decide +kernel

/-- Some of the pieces. -/
def usChunk1 : List (Nat × Nat) :=
  [usFile8, usFile9, usFile10, usFile11, usFile12, usFile13, usFile14, usFile15]

set_option maxRecDepth 100000 in
theorem us_chunk1 : usChunk1.all (pieceOk usCheck) = true := by decide +kernel

/-- Some of the pieces. -/
def usChunk2 : List (Nat × Nat) :=
  [usFile16, usFile17, usFile18, usFile19, usFile20]

set_option maxRecDepth 100000 in
theorem us_chunk2 : usChunk2.all (pieceOk usCheck) = true := by decide +kernel

theorem us_body : usFileBody.all (pieceOk usCheck) = true := by
  have h : usFileBody = usChunk0 ++
      (usChunk1 ++
      (usChunk2)) := rfl
  rw [h]
  simp only [List.all_append, us_chunk0, us_chunk1, us_chunk2, Bool.and_self]

set_option maxRecDepth 100000 in
theorem example_present : presentOk usFileBody exampleTable exampleLines = true := by decide +kernel

set_option maxRecDepth 100000 in
theorem us_loaded (env : Env) (he : UsualRunes env) (id : List Rune) :
    ∃ dict, loadFile env id (packedBytes usFile) = .ok dict ∧ Loaded usCheck env usFileBody dict ∧
      (∀ key, dict.exceptions.get key =
        lastDef (exceptionEntries env ((cutLines (pieceBytes usFileTail) []).map stringRunes)) key) :=
  loaded_file usCheck usFileHead usFileTail usFileBody us_body (by decide +kernel) (by decide +kernel)
    (by decide +kernel) (by decide +kernel) env he id

end Verif.Proofs
