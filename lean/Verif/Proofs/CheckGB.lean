import Verif.Proofs.CheckUS
import Verif.Model.HyphGB

/-! # The patterns of hyph-en-gb.tex, checked

The kernel reads every pattern of the file. -/

namespace Verif.Proofs
open Verif.Go Verif.Model Verif.Spec

/-- The text `.something.` in reverse. -/
def somethingText : List Nat := [46, 103, 110, 105, 104, 116, 101, 109, 111, 115, 46]

/-- The patterns of the file that occur in it (letters and values in reverse): 1so2m, 2om, m2e, 1me2t, meth4i, e2th1, h1in, 4ng. -/
def somethingTable : List (List Nat × List Nat) :=
  [([109, 111, 115], [2, 0, 1]),
   ([109, 111], [0, 2]),
   ([101, 109], [2, 0]),
   ([116, 101, 109], [2, 0, 1]),
   ([105, 104, 116, 101, 109], [4, 0, 0, 0, 0]),
   ([104, 116, 101], [1, 0, 2, 0]),
   ([110, 105, 104], [0, 1, 0]),
   ([103, 110], [0, 4])]

/-- Where they are: a piece of the file and a line of it. -/
def somethingLines : List (Nat × List Nat) :=
  [(30, [49, 115, 111, 50, 109]),
   (23, [50, 111, 109]),
   (19, [109, 50, 101]),
   (19, [49, 109, 101, 50, 116]),
   (19, [109, 101, 116, 104, 52, 105]),
   (11, [101, 50, 116, 104, 49]),
   (13, [104, 49, 105, 110]),
   (21, [52, 110, 103])]

/-- What is checked of each pattern. -/
def gbCheck (ls vs : List Nat) : Bool :=
  tableOk somethingText somethingTable ls vs

/-- Some of the pieces. -/
def gbChunk0 : List (Nat × Nat) :=
  [gbFile0, gbFile1, gbFile2, gbFile3, gbFile4, gbFile5, gbFile6, gbFile7]

set_option maxRecDepth 100000 in
theorem gb_chunk0 : gbChunk0.all (pieceOk gbCheck) = true := by decide +kernel

/-- Some of the pieces. -/
def gbChunk1 : List (Nat × Nat) :=
  [gbFile8, gbFile9, gbFile10, gbFile11, gbFile12, gbFile13, gbFile14, gbFile15]

set_option maxRecDepth 100000 in
theorem gb_chunk1 : gbChunk1.all (pieceOk gbCheck) = true := by decide +kernel

/-- Some of the pieces. -/
def gbChunk2 : List (Nat × Nat) :=
  [gbFile16, gbFile17, gbFile18, gbFile19, gbFile20, gbFile21, gbFile22, gbFile23]

set_option maxRecDepth 100000 in
theorem gb_chunk2 : gbChunk2.all (pieceOk gbCheck) = true := by decide +kernel

/-- Some of the pieces. -/
def gbChunk3 : List (Nat × Nat) :=
  [gbFile24, gbFile25, gbFile26, gbFile27, gbFile28, gbFile29, gbFile30, gbFile31]

set_option maxRecDepth 100000 in
theorem gb_chunk3 : gbChunk3.all (pieceOk gbCheck) = true := by decide +kernel

/-- Some of the pieces. -/
def gbChunk4 : List (Nat × Nat) :=
  [gbFile32, gbFile33, gbFile34, gbFile35, gbFile36]

set_option maxRecDepth 100000 in
theorem gb_chunk4 : gbChunk4.all (pieceOk gbCheck) = true := by decide +kernel

theorem gb_body : gbFileBody.all (pieceOk gbCheck) = true := by
  have h : gbFileBody = gbChunk0 ++
      (gbChunk1 ++
      (gbChunk2 ++
      (gbChunk3 ++
      (gbChunk4)))) := rfl
  rw [h]
  simp only [List.all_append, gb_chunk0, gb_chunk1, gb_chunk2, gb_chunk3, gb_chunk4, Bool.and_self]

set_option maxRecDepth 100000 in
theorem something_present : presentOk gbFileBody somethingTable somethingLines = true := by decide +kernel

set_option maxRecDepth 100000 in
theorem gb_loaded (env : Env) (he : UsualRunes env) (id : List Rune) :
    ∃ dict, loadFile env id (packedBytes gbFile) = .ok dict ∧ Loaded gbCheck env gbFileBody dict ∧
      (∀ key, dict.exceptions.get key =
        lastDef (exceptionEntries env ((cutLines (pieceBytes gbFileTail) []).map stringRunes)) key) :=
  loaded_file gbCheck gbFileHead gbFileTail gbFileBody gb_body (by decide +kernel) (by decide +kernel)
    (by decide +kernel) (by decide +kernel) env he id

end Verif.Proofs
