import Verif.Proofs.ShippedWords
import Verif.Model.HyphFR

/-! # The patterns of hyph-fr.tex, checked

The kernel reads every pattern of the file. -/

namespace Verif.Proofs
open Verif.Go Verif.Model Verif.Spec

/-- The text `.l'alcool.` in reverse. -/
def alcoolText : List Nat := [46, 108, 111, 111, 99, 108, 97, 39, 108, 46]

/-- The patterns of the file that occur in it (letters and values in reverse): 2'2, 'a4, '2alcool, 1alcool, 1co. -/
def alcoolTable : List (List Nat × List Nat) :=
  [([39], [2, 2]),
   ([97, 39], [4, 0, 0]),
   ([108, 111, 111, 99, 108, 97, 39], [0, 0, 0, 0, 0, 2, 0]),
   ([108, 111, 111, 99, 108, 97], [0, 0, 0, 0, 0, 1]),
   ([111, 99], [0, 1])]

/-- Where they are: a piece of the file and a line of it. -/
def alcoolLines : List (Nat × List Nat) :=
  [(0, [50, 39, 50]),
   (0, [39, 97, 52]),
   (0, [39, 50, 97, 108, 99, 111, 111, 108]),
   (0, [49, 97, 108, 99, 111, 111, 108]),
   (0, [49, 99, 111])]

/-- The pairs of letters that are never divided (in reverse, with the values of their patterns). -/
def frPairs : List (List Nat × List Nat) :=
  [([114, 99], [2, 1]),
   ([114, 100], [2, 1]),
   ([114, 102], [2, 1]),
   ([114, 103], [2, 1]),
   ([114, 107], [2, 1]),
   ([114, 112], [2, 1]),
   ([114, 118], [2, 1]),
   ([108, 99], [2, 1]),
   ([108, 102], [2, 1]),
   ([108, 103], [2, 1]),
   ([108, 112], [2, 1]),
   ([104, 99], [2, 1]),
   ([104, 112], [2, 1])]

/-- Where their patterns are. -/
def frPairLines : List (Nat × List Nat) :=
  [(0, [49, 99, 50, 114]),
   (1, [49, 100, 50, 114]),
   (1, [49, 102, 50, 114]),
   (1, [49, 103, 50, 114]),
   (2, [49, 107, 50, 114]),
   (4, [49, 112, 50, 114]),
   (5, [49, 118, 50, 114]),
   (0, [49, 99, 50, 108]),
   (1, [49, 102, 50, 108]),
   (1, [49, 103, 50, 108]),
   (4, [49, 112, 50, 108]),
   (0, [49, 99, 50, 104]),
   (4, [49, 112, 50, 104])]

/-- What is checked of each pattern. -/
def frCheck (ls vs : List Nat) : Bool :=
  tableOk alcoolText alcoolTable ls vs &&
  gapsOk (List.contains [99, 100, 102, 103, 107, 112, 118]) (List.contains [114]) 2 true ls.reverse vs.reverse &&
  pairOk (List.contains [99, 100, 102, 103, 107, 112, 118]) (List.contains [114]) 2 ls vs &&
  gapsOk (List.contains [99, 102, 103, 112]) (List.contains [108]) 2 true ls.reverse vs.reverse &&
  pairOk (List.contains [99, 102, 103, 112]) (List.contains [108]) 2 ls vs &&
  gapsOk (List.contains [99, 112]) (List.contains [104]) 2 true ls.reverse vs.reverse &&
  pairOk (List.contains [99, 112]) (List.contains [104]) 2 ls vs &&
  gapsOk (Nat.beq 39) (fun y => !(Nat.beq y 100 || Nat.beq y 112)) 2 true ls.reverse vs.reverse &&
  (match ls with | [39] => decide (vs = [2, 2]) | _ => true)

/-- Some of the pieces. -/
def frChunk0 : List (Nat × Nat) :=
  [frFile0, frFile1, frFile2, frFile3, frFile4, frFile5]

set_option maxRecDepth 100000 in
theorem fr_chunk0 : frChunk0.all (pieceOk frCheck) = true := by decide +kernel

theorem fr_body : frFileBody.all (pieceOk frCheck) = true := by
  have h : frFileBody = frChunk0 := rfl
  rw [h]
  simp only [List.all_append, fr_chunk0, Bool.and_self]

set_option maxRecDepth 100000 in
theorem alcool_present : presentOk frFileBody alcoolTable alcoolLines = true := by decide +kernel

set_option maxRecDepth 100000 in
theorem fr_pairs_present : presentOk frFileBody frPairs frPairLines = true := by decide +kernel

set_option maxRecDepth 100000 in
theorem fr_loaded (env : Env) (he : UsualRunes env) (id : List Rune) :
    ∃ dict, loadFile env id (packedBytes frFile) = .ok dict ∧ Loaded frCheck env frFileBody dict ∧
      (∀ key, dict.exceptions.get key =
        lastDef (exceptionEntries env ((cutLines (pieceBytes frFileTail) []).map stringRunes)) key) :=
  loaded_file frCheck frFileHead frFileTail frFileBody fr_body (by decide +kernel) (by decide +kernel)
    (by decide +kernel) (by decide +kernel) env he id

end Verif.Proofs
