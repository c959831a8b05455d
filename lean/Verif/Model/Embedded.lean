import Verif.Model.Scanner
import Verif.Model.Languages
import Verif.Model.HyphUS
import Verif.Model.HyphGB
import Verif.Model.HyphES
import Verif.Model.HyphFR
import Verif.Model.HyphDE

/-! # Hyphenators with the embedded pattern files -/

namespace Verif.Model
open Verif.Go

/-- The content of `texFS`, folder "languages" (wordbreak/hyphenator/embedded.go:9-10): the bytes of each
embedded file. -/
def embeddedBytes (name : String) : Option (List Nat) :=
  if name = "ushyphmax.tex" then some (packedBytes usFile)
  else if name = "hyph-en-gb.tex" then some (packedBytes gbFile)
  else if name = "hyph-es.tex" then some (packedBytes esFile)
  else if name = "hyph-fr.tex" then some (packedBytes frFile)
  else if name = "hyph-de-1996.tex" then some (packedBytes deFile)
  else none

/-- `SupportedPatterns` (dictionary.go:44-60): `ReadDir` of the embedded folder, which has no
subdirectory with a .tex file, then `sort.Strings`. The names are those of `embeddedFiles`, sorted. -/
def supportedPatterns : List String := embeddedFiles.mergeSort (fun a b => decide (a ≤ b))

/-- `LoadPatterns` (dictionary.go:86-136): `none` is the error of `texFS.Open` for a file that does not
exist. -/
def loadEmbedded (env : Env) (name : String) : Option (Res Dictionary) :=
  (embeddedBytes name).map (loadFile env (runesOf ("patterns: " ++ name)))

/-- `New(opts...)` followed by `BreakWord(word)` (hyphenator.go:24-32, 46-99). The cache
(wordbreak/hyphenator/cache.go:14-30) is left out: C19 shows that it gives the dictionary of the file. A
dictionary that is not found is a nil pointer, and using it a panic. -/
def newBreakWord (env : Env) (opts : List HOption) (word : List Rune) : Res (List (List Rune)) :=
  let o := hyphenatorOptions opts
  match loadEmbedded env (langToPattern o.lang) with
  | none => .error .explicit
  | some d => do
    let dict ← d
    hyphenatorBreakWord env dict ⟨o.minLength, o.minLeft, o.minRight⟩ word

end Verif.Model
