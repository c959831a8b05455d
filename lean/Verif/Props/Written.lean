import Verif.Proofs.LBWritten
import Verif.Props.AnyText

/-! # C101: the sequences written around each line -/

set_option linter.unusedSectionVars false

namespace Verif.Props
open Verif.Go Verif.Model Verif.Model.LB Verif.Spec Verif.Spec.Ansi Verif.Spec.LB Verif.Proofs Verif.Proofs.LB

section
variable {F : Type} [Arith F] [Laws F] {rt : Runtime} {env : Env} {dict : Dictionary} {opts : List (Opt F)}
  {text : List Rune → Int} {n : Nat} {l l' : LineBreaker F} {H : List Piece} {seqs : List (List Rune)}
  {tokens : List (List Rune)} {tks : List (List Span)} {maxWidth : F} {W : Int} {lines : List (List Rune)}

/-- **C101.** Words of any runes, after any history of calls. The lines are the ones of a layout of the words. Each is
written with the pieces of styled text of its parts of words; before it come the start sequences of a group of pieces,
after it the stop sequences of a group. The groups are those of the list of all pieces since the line breaker was made,
the ones of earlier calls first, but after as many pieces as the lines before have in this call. -/
theorem C101_written (c : AnyCall rt env dict opts text n l seqs tokens tks maxWidth W) (hh : AnyHist env dict opts l H)
    (hW : 0 < W) (h : leftAlignUniform rt env l tokens maxWidth = .ok (some lines, l')) :
    let sp := splitterOf env dict (defaultOptions opts)
    let P := styledPieces sp tks
    ∃ hy ls, HyphenText (defaultOptions opts) hy ∧
      Layout hy (Acceptable (measureOf (defaultOptions opts) text) W (Tolerated (defaultOptions opts))) false true
        (styledSyms sp tks) ls ∧
      Written (List.replicate n 0x20) (H ++ P) P 0 ls lines ∧
      ∀ out, Written (List.replicate n 0x20) (H ++ P) P 0 ls out → out = lines := by
  intro sp P
  obtain ⟨ls, h1, h2⟩ := any_written c hh hW h
  exact ⟨_, ls, hyphenText_new, h1, h2, fun out h3 => written_unique h3 h2⟩

/-- **C101**, histories: every line breaker made by New and used in calls that returned has one. -/
theorem C101_history (h : AnyHist env dict opts l H) (r : Option (List (List Rune)))
    (hr : leftAlignUniform rt env l tokens maxWidth = .ok (r, l')) :
    ∃ tks, List.Forall₂ (Found rt env) tokens tks ∧
      AnyHist env dict opts l' (H ++ styledPieces (splitterOf env dict (defaultOptions opts)) tks) := by
  obtain ⟨seqs, hu⟩ := hist_used h
  obtain ⟨tks, h1, _⟩ := C93_history hu r hr
  exact ⟨tks, h1, .call rt tokens tks maxWidth r h h1 hr⟩

/-- **C101**, after unstyled text: when the line breaker has set, without any sequence, at least as many parts of words
as there are in this text, no line is closed or resumed: sequences are written where they are in the words, and
nowhere else. -/
theorem C101_after_plain (c : AnyCall rt env dict opts text n l seqs tokens tks maxWidth W) (hh : AnyHist env dict opts l H)
    (hp : Plain H)
    (hl : (styledPieces (splitterOf env dict (defaultOptions opts)) tks).length ≤ H.length)
    (hW : 0 < W) (h : leftAlignUniform rt env l tokens maxWidth = .ok (some lines, l')) :
    let sp := splitterOf env dict (defaultOptions opts)
    ∃ hy ls, HyphenText (defaultOptions opts) hy ∧
      Layout hy (Acceptable (measureOf (defaultOptions opts) text) W (Tolerated (defaultOptions opts))) false true
        (styledSyms sp tks) ls ∧
      lines = bareLines (List.replicate n 0x20) (styledPieces sp tks) 0 ls := by
  intro sp
  obtain ⟨ls, h1, h2⟩ := any_written c hh hW h
  refine ⟨_, ls, hyphenText_new, h1, written_plain hp h2 (layout_bodies h1) ?_⟩
  have e : parts (styledSyms sp tks) = (styledPieces sp tks).map Piece.text := by
    rw [styledSyms_eq, parts_syms, ← parPieces_text, ← styledPieces_eq]
  rw [layout_parts h1, e, List.length_map, Nat.zero_add]
  exact hl

end

/-! ## Cases -/

local instance writtenLaws : Laws Rat := ratLaws (2 ^ 53) (le_refl _)

/-- A word in bold, a second reset, and two words without sequences. -/
def strayWords : List (List Rune) := ["\x1b[1maaaa\x1b[0m", "bbbb\x1b[0m", "cccc", "dddd"].map runesOf

def straySpans : List (List Span) :=
  [[⟨runesOf "\x1b[1m", runesOf "aaaa", runesOf "\x1b[0m"⟩], [⟨[], runesOf "bbbb", runesOf "\x1b[0m"⟩], [⟨[], runesOf "cccc", []⟩],
    [⟨[], runesOf "dddd", []⟩]]

def strayLines : List (List Rune) :=
  ["\x1b[1maaaa\x1b[0m", "bbbb\x1b[0m\x1b[0m\x1b[0m", "\x1b[1mcccc\x1b[0m\x1b[0m", "\x1b[1mdddd\x1b[0m\x1b[0m"].map runesOf

theorem stray_call : AnyCall forward Env.ascii (dictOf sampleLines) [unit] demoText 1 (demo []) [] strayWords straySpans
    (Arith.ofInt 4 : Rat) 4 :=
  ⟨.new, sane_demo, forward_walks, digits_ascii, .cons (found_run (by decide +kernel)) (.cons (found_run (by decide +kernel))
    (.cons (found_run (by decide +kernel)) (.cons (found_run (by decide +kernel)) .nil))),
    ⟨_, rfl, _, List.mem_cons_self, by decide +kernel⟩, demo_scaled 4, by decide +kernel⟩

theorem stray_run : ∃ l', leftAlignUniform forward Env.ascii (demo []) strayWords (Arith.ofInt 4 : Rat) =
    .ok (some strayLines, l') :=
  linesOf_ok (by decide +kernel)

/-- The theorem on this text. -/
example : ∃ hy ls, HyphenText (defaultOptions [unit]) hy ∧
    Layout hy (Acceptable (measureOf (defaultOptions [unit]) demoText) 4 (Tolerated (defaultOptions [unit]))) false true
      (styledSyms (splitterOf Env.ascii (dictOf sampleLines) (defaultOptions [unit])) straySpans) ls ∧
    Written [0x20] ([] ++ styledPieces (splitterOf Env.ascii (dictOf sampleLines) (defaultOptions [unit])) straySpans)
      (styledPieces (splitterOf Env.ascii (dictOf sampleLines) (defaultOptions [unit])) straySpans) 0 ls strayLines := by
  obtain ⟨l', h⟩ := stray_run
  obtain ⟨hy, ls, h1, h2, h3, _⟩ := C101_written stray_call .new (by decide) h
  exact ⟨hy, ls, h1, h2, h3⟩

/-- **C65 and C68 fail** after a stray reset: the words without sequences after it are shown in bold. -/
theorem C65_stray_stop_fails :
    linesOf forward (demo []) ["\x1b[1maaaa\x1b[0m", "bbbb\x1b[0m", "cccc", "dddd"] 4 = .ok (some strayLines) := by
  decide +kernel

/-- **C68 fails** after a stray reset: the last word, without style in the text, is shown in bold. -/
theorem C68_stray_stop_fails :
    linesOf forward (demo []) ["\x1b[1maaaa\x1b[0m", "bbbb\x1b[0m", "cccc", "dddd"] 4 = .ok (some strayLines) ∧
    Shows Env.ascii [] (runesOf "\x1b[1mdddd\x1b[0m\x1b[0m") ((runesOf "dddd").map (fun r => ⟨r, [bold.runes]⟩)) [] := by
  refine ⟨by decide +kernel, ?_⟩
  have e : runesOf "\x1b[1mdddd\x1b[0m\x1b[0m" = bold.runes ++ (runesOf "dddd" ++ (reset.runes ++ (reset.runes ++ []))) := by
    decide +kernel
  rw [e]
  refine .start bold_good.1 bold_good.2.2 ?_
  have h := (shows_text (env := Env.ascii) [bold.runes] (runesOf "dddd") (by decide)).append
    (Shows.stop reset_good.1 reset_good.2.2 (Shows.stop reset_good.1 reset_good.2.2 (.nil [])))
  rw [List.append_nil] at h
  exact h

/-- What a run of two calls is made of. -/
theorem secondLines_ok {rt : Runtime} {l : LineBreaker Rat} {before tokens : List String} {w : Rat} {r : Option (List (List Rune))}
    (h : secondLines rt l before tokens w = .ok r) : ∃ r₁ l₁ l₂, leftAlignUniform rt Env.ascii l (before.map runesOf) w = .ok (r₁, l₁) ∧
      leftAlignUniform rt Env.ascii l₁ (tokens.map runesOf) w = .ok (r, l₂) := by
  unfold secondLines at h
  cases e : leftAlignUniform rt Env.ascii l (before.map runesOf) w with
  | error p => rw [e] at h; cases h
  | ok p =>
    rw [e] at h
    obtain ⟨l₂, h2⟩ := linesOf_ok h
    exact ⟨p.1, p.2, l₂, rfl, h2⟩

def twoSpans : List (List Span) := [[⟨runesOf "\x1b[1m", runesOf "aaaa", []⟩], [⟨[], runesOf "bbbb", runesOf "\x1b[0m"⟩]]

/-- A line breaker that has set two words, then a text whose bold run covers two lines: no line is closed or resumed. -/
example : ∃ (l : LineBreaker Rat) (H : List Piece) (seqs : List (List Rune)) (l' : LineBreaker Rat),
    AnyHist Env.ascii (dictOf sampleLines) [unit] l H ∧ Plain H ∧
    AnyCall forward Env.ascii (dictOf sampleLines) [unit] demoText 1 l seqs (["\x1b[1maaaa", "bbbb\x1b[0m"].map runesOf) twoSpans
      (Arith.ofInt 4 : Rat) 4 ∧
    (styledPieces (splitterOf Env.ascii (dictOf sampleLines) (defaultOptions [unit])) twoSpans).length ≤ H.length ∧
    leftAlignUniform forward Env.ascii l (["\x1b[1maaaa", "bbbb\x1b[0m"].map runesOf) (Arith.ofInt 4 : Rat) =
      .ok (some (["\x1b[1maaaa", "bbbb\x1b[0m"].map runesOf), l') := by
  have h : secondLines forward (demo []) ["xxxx", "yyyy"] ["\x1b[1maaaa", "bbbb\x1b[0m"] (Arith.ofInt 4 : Rat) =
      .ok (some (["\x1b[1maaaa", "bbbb\x1b[0m"].map runesOf)) := by decide +kernel
  obtain ⟨r₁, l₁, l₂, h1, h2⟩ := secondLines_ok h
  have hf : List.Forall₂ (Found forward Env.ascii) (["xxxx", "yyyy"].map runesOf)
      [[⟨[], runesOf "xxxx", []⟩], [⟨[], runesOf "yyyy", []⟩]] :=
    .cons (found_run (by decide +kernel)) (.cons (found_run (by decide +kernel)) .nil)
  have e : styledPieces (splitterOf Env.ascii (dictOf sampleLines) (defaultOptions [unit]))
      [[⟨[], runesOf "xxxx", []⟩], [⟨[], runesOf "yyyy", []⟩]] = [⟨runesOf "xxxx", [], []⟩, ⟨runesOf "yyyy", [], []⟩] := by
    decide +kernel
  refine ⟨l₁, _, _, l₂, .call forward _ _ _ r₁ .new hf h1, ?_, ⟨.call forward _ _ _ r₁ .new hf h1, sane_demo, forward_walks, digits_ascii,
    .cons (found_run (by decide +kernel)) (.cons (found_run (by decide +kernel)) .nil),
    ⟨_, rfl, _, List.mem_cons_self, by decide +kernel⟩, demo_scaled 4, by decide +kernel⟩, ?_, h2⟩
  · rw [e]
    exact .cons _ (.cons _ .nil)
  · rw [e]
    decide +kernel

end Verif.Props
