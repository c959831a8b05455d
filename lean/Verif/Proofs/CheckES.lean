import Verif.Proofs.ShippedWords
import Verif.Model.HyphES

/-! # The patterns of hyph-es.tex, checked

The kernel reads every pattern of the file. -/

namespace Verif.Proofs
open Verif.Go Verif.Model Verif.Spec

/-- The text `.calle.` in reverse. -/
def calleText : List Nat := [46, 101, 108, 108, 97, 99, 46]

/-- The patterns of the file that occur in it (letters and values in reverse): .c2, 1c, 1l, l4l, 4e.. -/
def calleTable : List (List Nat × List Nat) :=
  [([99, 46], [2, 0, 0]),
   ([99], [1]),
   ([108], [1]),
   ([108, 108], [4, 0]),
   ([46, 101], [0, 4])]

/-- Where they are: a piece of the file and a line of it. -/
def calleLines : List (Nat × List Nat) :=
  [(0, [49, 99, 32, 52, 99, 46, 32, 46, 99, 50, 32, 50, 99, 98, 32, 50, 99, 99, 32, 50, 99, 100, 32, 50, 99, 102, 32, 50, 99, 103, 32, 32, 32, 32, 32, 50, 99, 106, 32, 50, 99, 107, 32, 32, 32, 32, 32, 50, 99, 109, 32, 50, 99, 110, 32, 50, 99, 112, 32, 50, 99, 113, 32, 32, 32, 32, 32, 50, 99, 115, 32, 50, 99, 116, 32, 50, 99, 118, 32, 50, 99, 119, 32, 50, 99, 120, 32, 50, 99, 121, 32, 50, 99, 122]),
   (0, [49, 99, 32, 52, 99, 46, 32, 46, 99, 50, 32, 50, 99, 98, 32, 50, 99, 99, 32, 50, 99, 100, 32, 50, 99, 102, 32, 50, 99, 103, 32, 32, 32, 32, 32, 50, 99, 106, 32, 50, 99, 107, 32, 32, 32, 32, 32, 50, 99, 109, 32, 50, 99, 110, 32, 50, 99, 112, 32, 50, 99, 113, 32, 32, 32, 32, 32, 50, 99, 115, 32, 50, 99, 116, 32, 50, 99, 118, 32, 50, 99, 119, 32, 50, 99, 120, 32, 50, 99, 121, 32, 50, 99, 122]),
   (0, [49, 108, 32, 52, 108, 46, 32, 46, 108, 50, 32, 50, 108, 98, 32, 50, 108, 99, 32, 50, 108, 100, 32, 50, 108, 102, 32, 50, 108, 103, 32, 50, 108, 104, 32, 50, 108, 106, 32, 50, 108, 107, 32, 32, 32, 32, 32, 50, 108, 109, 32, 50, 108, 110, 32, 50, 108, 112, 32, 50, 108, 113, 32, 50, 108, 114, 32, 50, 108, 115, 32, 50, 108, 116, 32, 50, 108, 118, 32, 50, 108, 119, 32, 50, 108, 120, 32, 50, 108, 121, 32, 50, 108, 122]),
   (1, [108, 52, 108, 32, 52, 108, 108, 46, 32, 50, 108, 108, 98, 32, 50, 108, 108, 99, 32, 50, 108, 108, 100, 32, 50, 108, 108, 102, 32, 50, 108, 108, 103, 32, 50, 108, 108, 104, 32, 50, 108, 108, 106, 32, 50, 108, 108, 107, 32, 50, 108, 108, 108, 32, 50, 108, 108, 109, 32, 50, 108, 108, 110, 32, 50, 108, 108, 112, 32, 50, 108, 108, 113, 32, 50, 108, 108, 114, 32, 50, 108, 108, 115, 32, 50, 108, 108, 116, 32, 50, 108, 108, 118, 32, 50, 108, 108, 119, 32, 50, 108, 108, 120, 32, 50, 108, 108, 121, 32, 50, 108, 108, 122]),
   (3, [52, 101, 46])]

/-- The pairs of letters that are never divided (in reverse, with the values of their patterns). -/
def esPairs : List (List Nat × List Nat) :=
  [([114, 99], [2, 0]),
   ([114, 100], [2, 0]),
   ([114, 102], [2, 0]),
   ([114, 103], [2, 0]),
   ([114, 107], [2, 0]),
   ([114, 112], [2, 0]),
   ([114, 118], [2, 0]),
   ([120, 116], [2, 2]),
   ([122, 116], [2, 2]),
   ([108, 108], [4, 0])]

/-- Where their patterns are. -/
def esPairLines : List (Nat × List Nat) :=
  [(2, [99, 50, 114, 32, 52, 99, 114, 46, 32, 50, 99, 114, 50, 98, 32, 50, 99, 114, 50, 99, 32, 50, 99, 114, 50, 100, 32, 50, 99, 114, 50, 102, 32, 50, 99, 114, 50, 103, 32, 50, 99, 114, 50, 104, 32, 50, 99, 114, 50, 106, 32, 50, 99, 114, 50, 107, 32, 50, 99, 114, 50, 108, 32, 50, 99, 114, 50, 109, 32, 50, 99, 114, 50, 110, 32, 50, 99, 114, 50, 112, 32, 50, 99, 114, 50, 113, 32, 50, 99, 114, 50, 114, 32, 50, 99, 114, 50, 115, 32, 50, 99, 114, 50, 116, 32, 50, 99, 114, 50, 118, 32, 50, 99, 114, 50, 119, 32, 50, 99, 114, 50, 120, 32, 50, 99, 114, 50, 121, 32, 50, 99, 114, 50, 122]),
   (2, [100, 50, 114, 32, 52, 100, 114, 46, 32, 50, 100, 114, 50, 98, 32, 50, 100, 114, 50, 99, 32, 50, 100, 114, 50, 100, 32, 50, 100, 114, 50, 102, 32, 50, 100, 114, 50, 103, 32, 50, 100, 114, 50, 104, 32, 50, 100, 114, 50, 106, 32, 50, 100, 114, 50, 107, 32, 50, 100, 114, 50, 108, 32, 50, 100, 114, 50, 109, 32, 50, 100, 114, 50, 110, 32, 50, 100, 114, 50, 112, 32, 50, 100, 114, 50, 113, 32, 50, 100, 114, 50, 114, 32, 50, 100, 114, 50, 115, 32, 50, 100, 114, 50, 116, 32, 50, 100, 114, 50, 118, 32, 50, 100, 114, 50, 119, 32, 50, 100, 114, 50, 120, 32, 50, 100, 114, 50, 121, 32, 50, 100, 114, 50, 122]),
   (2, [102, 50, 114, 32, 52, 102, 114, 46, 32, 50, 102, 114, 50, 98, 32, 50, 102, 114, 50, 99, 32, 50, 102, 114, 50, 100, 32, 50, 102, 114, 50, 102, 32, 50, 102, 114, 50, 103, 32, 50, 102, 114, 50, 104, 32, 50, 102, 114, 50, 106, 32, 50, 102, 114, 50, 107, 32, 50, 102, 114, 50, 108, 32, 50, 102, 114, 50, 109, 32, 50, 102, 114, 50, 110, 32, 50, 102, 114, 50, 112, 32, 50, 102, 114, 50, 113, 32, 50, 102, 114, 50, 114, 32, 50, 102, 114, 50, 115, 32, 50, 102, 114, 50, 116, 32, 50, 102, 114, 50, 118, 32, 50, 102, 114, 50, 119, 32, 50, 102, 114, 50, 120, 32, 50, 102, 114, 50, 121, 32, 50, 102, 114, 50, 122]),
   (2, [103, 50, 114, 32, 52, 103, 114, 46, 32, 50, 103, 114, 50, 98, 32, 50, 103, 114, 50, 99, 32, 50, 103, 114, 50, 100, 32, 50, 103, 114, 50, 102, 32, 50, 103, 114, 50, 103, 32, 50, 103, 114, 50, 104, 32, 50, 103, 114, 50, 106, 32, 50, 103, 114, 50, 107, 32, 50, 103, 114, 50, 108, 32, 50, 103, 114, 50, 109, 32, 50, 103, 114, 50, 110, 32, 50, 103, 114, 50, 112, 32, 50, 103, 114, 50, 113, 32, 50, 103, 114, 50, 114, 32, 50, 103, 114, 50, 115, 32, 50, 103, 114, 50, 116, 32, 50, 103, 114, 50, 118, 32, 50, 103, 114, 50, 119, 32, 50, 103, 114, 50, 120, 32, 50, 103, 114, 50, 121, 32, 50, 103, 114, 50, 122]),
   (2, [107, 50, 114, 32, 52, 107, 114, 46, 32, 50, 107, 114, 50, 98, 32, 50, 107, 114, 50, 99, 32, 50, 107, 114, 50, 100, 32, 50, 107, 114, 50, 102, 32, 50, 107, 114, 50, 103, 32, 50, 107, 114, 50, 104, 32, 50, 107, 114, 50, 106, 32, 50, 107, 114, 50, 107, 32, 50, 107, 114, 50, 108, 32, 50, 107, 114, 50, 109, 32, 50, 107, 114, 50, 110, 32, 50, 107, 114, 50, 112, 32, 50, 107, 114, 50, 113, 32, 50, 107, 114, 50, 114, 32, 50, 107, 114, 50, 115, 32, 50, 107, 114, 50, 116, 32, 50, 107, 114, 50, 118, 32, 50, 107, 114, 50, 119, 32, 50, 107, 114, 50, 120, 32, 50, 107, 114, 50, 121, 32, 50, 107, 114, 50, 122]),
   (2, [112, 50, 114, 32, 52, 112, 114, 46, 32, 50, 112, 114, 50, 98, 32, 50, 112, 114, 50, 99, 32, 50, 112, 114, 50, 100, 32, 50, 112, 114, 50, 102, 32, 50, 112, 114, 50, 103, 32, 50, 112, 114, 50, 104, 32, 50, 112, 114, 50, 106, 32, 50, 112, 114, 50, 107, 32, 50, 112, 114, 50, 108, 32, 50, 112, 114, 50, 109, 32, 50, 112, 114, 50, 110, 32, 50, 112, 114, 50, 112, 32, 50, 112, 114, 50, 113, 32, 50, 112, 114, 50, 114, 32, 50, 112, 114, 50, 115, 32, 50, 112, 114, 50, 116, 32, 50, 112, 114, 50, 118, 32, 50, 112, 114, 50, 119, 32, 50, 112, 114, 50, 120, 32, 50, 112, 114, 50, 121, 32, 50, 112, 114, 50, 122]),
   (2, [118, 50, 114, 32, 52, 118, 114, 46, 32, 50, 118, 114, 50, 98, 32, 50, 118, 114, 50, 99, 32, 50, 118, 114, 50, 100, 32, 50, 118, 114, 50, 102, 32, 50, 118, 114, 50, 103, 32, 50, 118, 114, 50, 104, 32, 50, 118, 114, 50, 106, 32, 50, 118, 114, 50, 107, 32, 50, 118, 114, 50, 108, 32, 50, 118, 114, 50, 109, 32, 50, 118, 114, 50, 110, 32, 50, 118, 114, 50, 112, 32, 50, 118, 114, 50, 113, 32, 50, 118, 114, 50, 114, 32, 50, 118, 114, 50, 115, 32, 50, 118, 114, 50, 116, 32, 50, 118, 114, 50, 118, 32, 50, 118, 114, 50, 119, 32, 50, 118, 114, 50, 120, 32, 50, 118, 114, 50, 121, 32, 50, 118, 114, 50, 122]),
   (3, [50, 116, 50, 120]),
   (3, [50, 116, 50, 122]),
   (1, [108, 52, 108, 32, 52, 108, 108, 46, 32, 50, 108, 108, 98, 32, 50, 108, 108, 99, 32, 50, 108, 108, 100, 32, 50, 108, 108, 102, 32, 50, 108, 108, 103, 32, 50, 108, 108, 104, 32, 50, 108, 108, 106, 32, 50, 108, 108, 107, 32, 50, 108, 108, 108, 32, 50, 108, 108, 109, 32, 50, 108, 108, 110, 32, 50, 108, 108, 112, 32, 50, 108, 108, 113, 32, 50, 108, 108, 114, 32, 50, 108, 108, 115, 32, 50, 108, 108, 116, 32, 50, 108, 108, 118, 32, 50, 108, 108, 119, 32, 50, 108, 108, 120, 32, 50, 108, 108, 121, 32, 50, 108, 108, 122])]

/-- What is checked of each pattern. -/
def esCheck (ls vs : List Nat) : Bool :=
  tableOk calleText calleTable ls vs &&
  gapsOk (List.contains [99, 100, 102, 103, 107, 112, 118]) (List.contains [114]) 2 true ls.reverse vs.reverse &&
  pairOk (List.contains [99, 100, 102, 103, 107, 112, 118]) (List.contains [114]) 2 ls vs &&
  gapsOk (List.contains [116]) (List.contains [120, 122]) 2 true ls.reverse vs.reverse &&
  pairOk (List.contains [116]) (List.contains [120, 122]) 2 ls vs &&
  gapsOk (List.contains [108]) (List.contains [108]) 4 true ls.reverse vs.reverse &&
  pairOk (List.contains [108]) (List.contains [108]) 4 ls vs

/-- Some of the pieces. -/
def esChunk0 : List (Nat × Nat) :=
  [esFile0, esFile1, esFile2, esFile3, esFile4, esFile5, esFile6, esFile7]

set_option maxRecDepth 100000 in
theorem es_chunk0 : esChunk0.all (pieceOk esCheck) = true := by decide +kernel

/-- Some of the pieces. -/
def esChunk1 : List (Nat × Nat) :=
  [esFile8, esFile9, esFile10, esFile11, esFile12, esFile13, esFile14, esFile15]

set_option maxRecDepth 100000 in
theorem es_chunk1 : esChunk1.all (pieceOk esCheck) = true := by decide +kernel

/-- Some of the pieces. -/
def esChunk2 : List (Nat × Nat) :=
  [esFile16, esFile17, esFile18, esFile19, esFile20, esFile21, esFile22, esFile23]

set_option maxRecDepth 100000 in
theorem es_chunk2 : esChunk2.all (pieceOk esCheck) = true := by decide +kernel

/-- Some of the pieces. -/
def esChunk3 : List (Nat × Nat) :=
  [esFile24, esFile25, esFile26]

set_option maxRecDepth 100000 in
theorem es_chunk3 : esChunk3.all (pieceOk esCheck) = true := by decide +kernel

theorem es_body : esFileBody.all (pieceOk esCheck) = true := by
  have h : esFileBody = esChunk0 ++
      (esChunk1 ++
      (esChunk2 ++
      (esChunk3))) := rfl
  rw [h]
  simp only [List.all_append, es_chunk0, es_chunk1, es_chunk2, es_chunk3, Bool.and_self]

set_option maxRecDepth 100000 in
theorem calle_present : presentOk esFileBody calleTable calleLines = true := by decide +kernel

set_option maxRecDepth 100000 in
theorem es_pairs_present : presentOk esFileBody esPairs esPairLines = true := by decide +kernel

set_option maxRecDepth 100000 in
theorem es_loaded (env : Env) (he : UsualRunes env) (id : List Rune) :
    ∃ dict, loadFile env id (packedBytes esFile) = .ok dict ∧ Loaded esCheck env esFileBody dict ∧
      (∀ key, dict.exceptions.get key =
        lastDef (exceptionEntries env ((cutLines (pieceBytes esFileTail) []).map stringRunes)) key) :=
  loaded_file esCheck esFileHead esFileTail esFileBody es_body (by decide +kernel) (by decide +kernel)
    (by decide +kernel) (by decide +kernel) env he id

end Verif.Proofs
