import Verif.Proofs.CheckES
import Verif.Model.HyphDE

/-! # The patterns of hyph-de-1996.tex, checked

The kernel reads every pattern of the file. -/

namespace Verif.Proofs
open Verif.Go Verif.Model Verif.Spec

/-- The text `.silbentrennung.` in reverse. -/
def silbenText : List Nat := [46, 103, 110, 117, 110, 110, 101, 114, 116, 110, 101, 98, 108, 105, 115, 46]

/-- The patterns of the file that occur in it (letters and values in reverse): 1si, 3silb, 2ilb, 2lb, 1b, ben5t4r, 2nt, 1t, t2r2, 3trennu, 1re, 2n1n, 1nu, nu2n, 3n2ung4, un1, 2ng, 1g. -/
def silbenTable : List (List Nat × List Nat) :=
  [([105, 115], [0, 1]),
   ([98, 108, 105, 115], [0, 0, 0, 3]),
   ([98, 108, 105], [0, 0, 2]),
   ([98, 108], [0, 2]),
   ([98], [1]),
   ([114, 116, 110, 101, 98], [4, 5, 0, 0, 0]),
   ([116, 110], [0, 2]),
   ([116], [1]),
   ([114, 116], [2, 2, 0]),
   ([117, 110, 110, 101, 114, 116], [0, 0, 0, 0, 0, 3]),
   ([101, 114], [0, 1]),
   ([110, 110], [1, 2]),
   ([117, 110], [0, 1]),
   ([110, 117, 110], [2, 0, 0]),
   ([103, 110, 117, 110], [4, 0, 0, 2, 3]),
   ([110, 117], [1, 0, 0]),
   ([103, 110], [0, 2]),
   ([103], [1])]

/-- Where they are: a piece of the file and a line of it. -/
def silbenLines : List (Nat × List Nat) :=
  [(95, [49, 115, 105]),
   (95, [51, 115, 105, 108, 98]),
   (47, [50, 105, 108, 98]),
   (57, [50, 108, 98]),
   (12, [49, 98]),
   (13, [98, 101, 110, 53, 116, 52, 114]),
   (72, [50, 110, 116]),
   (100, [49, 116]),
   (105, [116, 50, 114, 50]),
   (106, [51, 116, 114, 101, 110, 110, 117]),
   (85, [49, 114, 101]),
   (71, [50, 110, 49, 110]),
   (73, [49, 110, 117]),
   (73, [110, 117, 50, 110]),
   (73, [51, 110, 50, 117, 110, 103, 52]),
   (111, [117, 110, 49]),
   (69, [50, 110, 103]),
   (34, [49, 103])]

/-- What is checked of each pattern. -/
def deCheck (ls vs : List Nat) : Bool :=
  tableOk silbenText silbenTable ls vs

/-- Some of the pieces. -/
def deChunk0 : List (Nat × Nat) :=
  [deFile0, deFile1, deFile2, deFile3, deFile4, deFile5, deFile6, deFile7]

set_option maxRecDepth 100000 in
theorem de_chunk0 : deChunk0.all (pieceOk deCheck) = true := by decide +kernel

/-- Some of the pieces. -/
def deChunk1 : List (Nat × Nat) :=
  [deFile8, deFile9, deFile10, deFile11, deFile12, deFile13, deFile14, deFile15]

set_option maxRecDepth 100000 in
theorem de_chunk1 : deChunk1.all (pieceOk deCheck) = true := by decide +kernel

/-- Some of the pieces. -/
def deChunk2 : List (Nat × Nat) :=
  [deFile16, deFile17, deFile18, deFile19, deFile20, deFile21, deFile22, deFile23]

set_option maxRecDepth 100000 in
theorem de_chunk2 : deChunk2.all (pieceOk deCheck) = true := by decide +kernel

/-- Some of the pieces. -/
def deChunk3 : List (Nat × Nat) :=
  [deFile24, deFile25, deFile26, deFile27, deFile28, deFile29, deFile30, deFile31]

set_option maxRecDepth 100000 in
theorem de_chunk3 : deChunk3.all (pieceOk deCheck) = true := by decide +kernel

/-- Some of the pieces. -/
def deChunk4 : List (Nat × Nat) :=
  [deFile32, deFile33, deFile34, deFile35, deFile36, deFile37, deFile38, deFile39]

set_option maxRecDepth 100000 in
theorem de_chunk4 : deChunk4.all (pieceOk deCheck) = true := by decide +kernel

/-- Some of the pieces. -/
def deChunk5 : List (Nat × Nat) :=
  [deFile40, deFile41, deFile42, deFile43, deFile44, deFile45, deFile46, deFile47]

set_option maxRecDepth 100000 in
theorem de_chunk5 : deChunk5.all (pieceOk deCheck) = true := by decide +kernel

/-- Some of the pieces. -/
def deChunk6 : List (Nat × Nat) :=
  [deFile48, deFile49, deFile50, deFile51, deFile52, deFile53, deFile54, deFile55]

set_option maxRecDepth 100000 in
theorem de_chunk6 : deChunk6.all (pieceOk deCheck) = true := by decide +kernel

/-- Some of the pieces. -/
def deChunk7 : List (Nat × Nat) :=
  [deFile56, deFile57, deFile58, deFile59, deFile60, deFile61, deFile62, deFile63]

set_option maxRecDepth 100000 in
theorem de_chunk7 : deChunk7.all (pieceOk deCheck) = true := by decide +kernel

/-- Some of the pieces. -/
def deChunk8 : List (Nat × Nat) :=
  [deFile64, deFile65, deFile66, deFile67, deFile68, deFile69, deFile70, deFile71]

set_option maxRecDepth 100000 in
theorem de_chunk8 : deChunk8.all (pieceOk deCheck) = true := by decide +kernel

/-- Some of the pieces. -/
def deChunk9 : List (Nat × Nat) :=
  [deFile72, deFile73, deFile74, deFile75, deFile76, deFile77, deFile78, deFile79]

set_option maxRecDepth 100000 in
theorem de_chunk9 : deChunk9.all (pieceOk deCheck) = true := by decide +kernel

/-- Some of the pieces. -/
def deChunk10 : List (Nat × Nat) :=
  [deFile80, deFile81, deFile82, deFile83, deFile84, deFile85, deFile86, deFile87]

set_option maxRecDepth 100000 in
theorem de_chunk10 : deChunk10.all (pieceOk deCheck) = true := by decide +kernel

/-- Some of the pieces. -/
def deChunk11 : List (Nat × Nat) :=
  [deFile88, deFile89, deFile90, deFile91, deFile92, deFile93, deFile94, deFile95]

set_option maxRecDepth 100000 in
theorem de_chunk11 : deChunk11.all (pieceOk deCheck) = true := by decide +kernel

/-- Some of the pieces. -/
def deChunk12 : List (Nat × Nat) :=
  [deFile96, deFile97, deFile98, deFile99, deFile100, deFile101, deFile102, deFile103]

set_option maxRecDepth 100000 in
theorem de_chunk12 : deChunk12.all (pieceOk deCheck) = true := by decide +kernel

/-- Some of the pieces. -/
def deChunk13 : List (Nat × Nat) :=
  [deFile104, deFile105, deFile106, deFile107, deFile108, deFile109, deFile110, deFile111]

set_option maxRecDepth 100000 in
theorem de_chunk13 : deChunk13.all (pieceOk deCheck) = true := by decide +kernel

/-- Some of the pieces. -/
def deChunk14 : List (Nat × Nat) :=
  [deFile112, deFile113, deFile114, deFile115, deFile116, deFile117, deFile118, deFile119]

set_option maxRecDepth 100000 in
theorem de_chunk14 : deChunk14.all (pieceOk deCheck) = true := by decide +kernel

/-- Some of the pieces. -/
def deChunk15 : List (Nat × Nat) :=
  [deFile120]

set_option maxRecDepth 100000 in
theorem de_chunk15 : deChunk15.all (pieceOk deCheck) = true := by decide +kernel

theorem de_body : deFileBody.all (pieceOk deCheck) = true := by
  have h : deFileBody = deChunk0 ++
      (deChunk1 ++
      (deChunk2 ++
      (deChunk3 ++
      (deChunk4 ++
      (deChunk5 ++
      (deChunk6 ++
      (deChunk7 ++
      (deChunk8 ++
      (deChunk9 ++
      (deChunk10 ++
      (deChunk11 ++
      (deChunk12 ++
      (deChunk13 ++
      (deChunk14 ++
      (deChunk15))))))))))))))) := rfl
  rw [h]
  simp only [List.all_append, de_chunk0, de_chunk1, de_chunk2, de_chunk3, de_chunk4, de_chunk5, de_chunk6, de_chunk7, de_chunk8, de_chunk9, de_chunk10, de_chunk11, de_chunk12, de_chunk13, de_chunk14, de_chunk15, Bool.and_self]

set_option maxRecDepth 100000 in
theorem silben_present : presentOk deFileBody silbenTable silbenLines = true := by decide +kernel

set_option maxRecDepth 100000 in
theorem de_loaded (env : Env) (he : UsualRunes env) (id : List Rune) :
    ∃ dict, loadFile env id (packedBytes deFile) = .ok dict ∧ Loaded deCheck env deFileBody dict ∧
      (∀ key, dict.exceptions.get key =
        lastDef (exceptionEntries env ((cutLines (pieceBytes deFileTail) []).map stringRunes)) key) :=
  loaded_file deCheck deFileHead deFileTail deFileBody de_body (by decide +kernel) (by decide +kernel)
    (by decide +kernel) (by decide +kernel) env he id

end Verif.Proofs
