import Verif.Model.Languages

/-! # Properties C20 and C66: languages and options of the hyphenator -/

namespace Verif.Props
open Verif.Model

/-- **C20.** Whatever the matcher returns, the file is an embedded one. -/
theorem C20_embedded (matched : Tag) : langToPattern matched ∈ embeddedFiles := by
  unfold langToPattern
  repeat (split; · decide)
  decide

/-- The file of each language, for the user: by base language, American English apart. -/
def fileOf (t : Tag) : String :=
  match t.base with
  | "en" => if t.region = "US" then "ushyphmax.tex" else "hyph-en-gb.tex"
  | "es" => "hyph-es.tex"
  | "fr" => "hyph-fr.tex"
  | "de" => "hyph-de-1996.tex"
  | _ => "ushyphmax.tex"

/-- **C20.** If the matcher answers with one of the supported tags, the file is the one of that
language. (This is a statement on the whole list of supported languages, not on a sample.) -/
theorem C20_supported_partial (matched : Tag) (h : matched ∈ supportedLanguages) :
    langToPattern matched = fileOf matched := by
  have : ∀ t ∈ supportedLanguages, langToPattern t = fileOf t := by decide
  exact this matched h

/-- **C20.** Any other answer gets American English. -/
theorem C20_others_american (matched : Tag) (h : matched ∉ supportedLanguages) :
    langToPattern matched = "ushyphmax.tex" := by
  simp only [supportedLanguages, List.mem_cons, List.not_mem_nil, or_false, not_or] at h
  simp [langToPattern, h]

/-- **C20 fails** for regional variants: golang.org/x/text's matcher answers with the supported tag
completed by the region of the request (`fr-u-rg-chzzzz` for fr-CH, es-MX for es-MX, since es-419
contains MX), which is none of the constants compared with: these French and Spanish users get American
English. -/
theorem C20_regional_variant_fails :
    langToPattern ⟨"fr", "", "u-rg-chzzzz"⟩ = "ushyphmax.tex" ∧
    langToPattern ⟨"es", "MX", ""⟩ = "ushyphmax.tex" ∧
    langToPattern ⟨"de", "", "u-rg-atzzzz"⟩ = "ushyphmax.tex" := by decide

example : langToPattern canadianFrench = "hyph-fr.tex" := by decide

/-! ## C66 -/

/-- The last value given by the options for one setting. -/
def lastOf {α : Type} (pick : HOption → Option α) (dflt : α) (opts : List HOption) : α :=
  ((opts.filterMap pick).getLast?).getD dflt

theorem lastOf_append {α : Type} (pick : HOption → Option α) (dflt : α) (opts : List HOption) (o : HOption) :
    lastOf pick dflt (opts ++ [o]) = (pick o).getD (lastOf pick dflt opts) := by
  unfold lastOf
  rw [List.filterMap_append]
  cases h : pick o <;> simp [h]

/-- **C66.** Each setting of a hyphenator has the value of the last option given for it, and its
documented default when there is none (en-US, 4, 2, 2). -/
theorem C66_options_last_wins (opts : List HOption) :
    (hyphenatorOptions opts).lang = lastOf (fun | .lang t => some t | _ => none) ⟨"en", "US", ""⟩ opts ∧
    (hyphenatorOptions opts).minLength = lastOf (fun | .minLength t => some t | _ => none) 4 opts ∧
    (hyphenatorOptions opts).minLeft = lastOf (fun | .minLeft t => some t | _ => none) 2 opts ∧
    (hyphenatorOptions opts).minRight = lastOf (fun | .minRight t => some t | _ => none) 2 opts := by
  generalize hr : opts.reverse = r
  have : opts = r.reverse := by rw [← hr, List.reverse_reverse]
  subst this
  clear hr
  induction r with
  | nil => exact ⟨rfl, rfl, rfl, rfl⟩
  | cons o r ih =>
    rw [List.reverse_cons]
    obtain ⟨h1, h2, h3, h4⟩ := ih
    have he : hyphenatorOptions (r.reverse ++ [o]) = HOption.apply (hyphenatorOptions r.reverse) o := by
      simp [hyphenatorOptions, List.foldl_append]
    rw [he]
    simp only [lastOf_append]
    cases o <;> simp [HOption.apply, h1, h2, h3, h4]

example : hyphenatorOptions [.minLeft 3, .lang french, .minLeft 5] = ⟨french, 4, 5, 2⟩ := by decide

end Verif.Props
