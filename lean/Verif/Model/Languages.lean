import Verif.Model.Hyphenator

/-! # Model of `wordbreak/hyphenator/languages.go`, `options.go` and `New` -/

namespace Verif.Model

/-- `language.Tag` of golang.org/x/text (compared with `==` in languages.go:26): a base language, a
region and whatever else (script, variants, extensions such as `-u-rg-chzzzz`) in text form. -/
structure Tag where
  base : String
  region : String
  rest : String
deriving DecidableEq, Repr

/-- `language.AmericanEnglish`: en-US (Go library; hyphenator/languages.go:9). -/
def americanEnglish : Tag := ⟨"en", "US", ""⟩
/-- `language.BritishEnglish`: en-GB (Go library; hyphenator/languages.go:10). -/
def britishEnglish : Tag := ⟨"en", "GB", ""⟩
/-- `language.English`: en (Go library; hyphenator/languages.go:11). -/
def english : Tag := ⟨"en", "", ""⟩
/-- `language.French`: fr (Go library; hyphenator/languages.go:12). -/
def french : Tag := ⟨"fr", "", ""⟩
/-- `language.CanadianFrench`: fr-CA (Go library; hyphenator/languages.go:13). -/
def canadianFrench : Tag := ⟨"fr", "CA", ""⟩
/-- `language.German`: de (Go library; hyphenator/languages.go:14). -/
def german : Tag := ⟨"de", "", ""⟩
/-- `language.Spanish`: es (Go library; hyphenator/languages.go:15). -/
def spanish : Tag := ⟨"es", "", ""⟩
/-- `language.EuropeanSpanish`: es-ES (Go library; hyphenator/languages.go:16). -/
def europeanSpanish : Tag := ⟨"es", "ES", ""⟩
/-- `language.LatinAmericanSpanish`: es-419 (Go library; hyphenator/languages.go:17). -/
def latinAmericanSpanish : Tag := ⟨"es", "419", ""⟩

/-- `supportedLanguages` (languages.go:8-18). -/
def supportedLanguages : List Tag :=
  [americanEnglish, britishEnglish, english, french, canadianFrench, german, spanish, europeanSpanish,
   latinAmericanSpanish]

/-- `langToPattern` (languages.go:23-40), from the tag returned by the matcher: the library
`langMatcher.Match` is not modelled, its result `matched` is the argument. -/
def langToPattern (matched : Tag) : String :=
  if matched = britishEnglish ∨ matched = english then "hyph-en-gb.tex"
  else if matched = spanish ∨ matched = europeanSpanish ∨ matched = latinAmericanSpanish then "hyph-es.tex"
  else if matched = french ∨ matched = canadianFrench then "hyph-fr.tex"
  else if matched = german then "hyph-de-1996.tex"
  else "ushyphmax.tex"

/-- The files embedded by `//go:embed languages/*.tex` (embedded.go:9), i.e. the content of
wordbreak/hyphenator/languages. -/
def embeddedFiles : List String :=
  ["hyph-de-1996.tex", "hyph-en-gb.tex", "hyph-es.tex", "hyph-fr.tex", "ushyphmax.tex"]

/-- The `options` of a hyphenator (options.go:11-16). -/
structure HSettings where
  lang : Tag
  minLength : Int
  minLeft : Int
  minRight : Int
deriving DecidableEq, Repr

/-- An `Option` (options.go:9): one constructor for each of the exported constructors. `WithLanguage`
(options.go:37-43) is `lang` with the tag found by the matcher. -/
inductive HOption where
  /-- options.go:25-29 and 37-43 -/
  | lang (tag : Tag)
  /-- options.go:48-52 -/
  | minLength (n : Int)
  /-- options.go:57-61 -/
  | minLeft (n : Int)
  /-- options.go:66-70 -/
  | minRight (n : Int)
deriving DecidableEq, Repr

/-- The body of each option (options.go:27, 41, 50, 59, 68). -/
def HOption.apply (o : HSettings) : HOption → HSettings
  | lang tag => { o with lang := tag }
  | minLength n => { o with minLength := n }
  | minLeft n => { o with minLeft := n }
  | minRight n => { o with minRight := n }

/-- `defaultOptions` (options.go:72-85). -/
def hyphenatorOptions (opts : List HOption) : HSettings :=
  opts.foldl HOption.apply ⟨americanEnglish, 4, 2, 2⟩

end Verif.Model
