import Verif.Proofs.LBAny
import Verif.Props.Ansi
import Verif.Props.StyledWidth

/-! # C93: words of any runes

Tokens are not assumed to be well-formed here: they may hold sequences of any kind, nested, repeated, unknown or broken. What
they contain is what StripToken finds in them. -/

set_option linter.unusedSectionVars false

namespace Verif.Props
open Verif.Go Verif.Model Verif.Model.LB Verif.Spec Verif.Spec.Ansi Verif.Spec.LB Verif.Proofs Verif.Proofs.LB

section
variable {F : Type} [Arith F] [Laws F] {rt : Runtime} {env : Env} {dict : Dictionary} {opts : List (Opt F)}
  {text : List Rune → Int} {n : Nat} {l l' : LineBreaker F} {seqs : List (List Rune)} {tokens : List (List Rune)}
  {tks : List (List Span)} {maxWidth : F} {W : Int} {lines : List (List Rune)}

/-- StripToken returns on every token that does not end within a sequence, in a parameter of three digits; nothing of the
token is lost, and the starts and stops found are sequences of their kind. -/
theorem C93_found (rt : Runtime) (hd : AsciiDigits env) (tokens : List (List Rune))
    (h : ∀ t ∈ tokens, (t.length : Int) < 2 ^ 63 ∧ ¬ EndsLong env t) :
    ∃ tks, List.Forall₂ (Found rt env) tokens tks ∧ List.Forall₂ (fun t xs => xs.flatMap Span.runes = t) tokens tks ∧
      ∀ xs ∈ tks, ∀ x ∈ xs, x.Styled env := by
  induction tokens with
  | nil => exact ⟨[], .nil, .nil, by simp⟩
  | cons t ts ih =>
    obtain ⟨tks, h1, h2, h5⟩ := ih (fun u hu => h u (by simp [hu]))
    obtain ⟨xs, h3, h4, h6⟩ := found_whole rt hd t (h t (by simp)).1 (h t (by simp)).2
    refine ⟨xs :: tks, .cons h3 h1, .cons h4 h2, ?_⟩
    intro ys hys
    rcases List.mem_cons.mp hys with rfl | hys
    · exact h6
    · exact h5 ys hys

omit [Laws F] in
theorem box_found {l : LineBreaker F} {t : List Rune} {a : AState} {r : List (Node F) × AState}
    (h : boxNodes rt env l t a = .ok r) : ∃ xs, Found rt env t xs := by
  unfold boxNodes at h
  cases h1 : Ansi.stripToken env (t ++ rt.spare t) ⟨0, t.length⟩ with
  | error e => rw [h1] at h; cases h
  | ok p => exact ⟨_, p.1, p.2, h1, rfl⟩

omit [Laws F] in
theorem loop_found {l : LineBreaker F} {a : AState} {r : List (Node F) × AState}
    (h : tokensLoop rt env l tokens a = .ok r) : ∃ tks, List.Forall₂ (Found rt env) tokens tks := by
  induction tokens generalizing a r with
  | nil => exact ⟨[], .nil⟩
  | cons t ts ih =>
    have hb : ∃ p, boxNodes rt env l t a = .ok p ∧ (ts = [] ∨ ∃ q, tokensLoop rt env l ts p.2 = .ok q) := by
      cases ts with
      | nil =>
        unfold tokensLoop at h
        cases h1 : boxNodes rt env l t a with
        | error e => rw [h1] at h; cases h
        | ok p => exact ⟨p, rfl, Or.inl rfl⟩
      | cons u us =>
        unfold tokensLoop at h
        cases h1 : boxNodes rt env l t a with
        | error e => rw [h1] at h; cases h
        | ok p =>
          rw [h1] at h
          cases h2 : tokensLoop rt env l (u :: us) p.2 with
          | error e => simp only [ok_bind] at h; rw [h2] at h; cases h
          | ok q => exact ⟨p, rfl, Or.inr ⟨q, h2⟩⟩
    obtain ⟨p, h1, h2⟩ := hb
    obtain ⟨xs, h3⟩ := box_found h1
    rcases h2 with rfl | ⟨q, h2⟩
    · exact ⟨[xs], .cons h3 .nil⟩
    · obtain ⟨tks, h4⟩ := ih h2
      exact ⟨xs :: tks, .cons h3 h4⟩

/-- Histories are all the ones without panic: StripToken returned on the words of a call that returned. -/
theorem C93_history (h : AnyUsed env dict opts l seqs) (r : Option (List (List Rune)))
    (hr : leftAlignUniform rt env l tokens maxWidth = .ok (r, l')) :
    ∃ tks, List.Forall₂ (Found rt env) tokens tks ∧ AnyUsed env dict opts l' (seqs ++ seqsOf tks) := by
  obtain ⟨nodes, attrs, h1, _⟩ := align_kept hr
  obtain ⟨tks, h2⟩ := loop_found h1
  exact ⟨tks, h2, .call rt tokens tks maxWidth r h h2 hr⟩

/-- **C93** (partial: no word ends within a sequence, in a parameter of three digits; there is some text in the first word).
After any history, the call returns: with lines if the texts found can be set on acceptable lines, with the error if not. -/
theorem C93_no_panic_partial (c : AnyCall rt env dict opts text n l seqs tokens tks maxWidth W) (hW : 0 < W) :
    (∃ r, leftAlignUniform rt env l tokens maxWidth = .ok r) ∧
    ((∃ lines l', leftAlignUniform rt env l tokens maxWidth = .ok (some lines, l')) ↔
      Settable (measureOf (defaultOptions opts) text) W (Tolerated (defaultOptions opts))
        (styledSyms (splitterOf env dict (defaultOptions opts)) tks)) := by
  rcases any_exact c hW with ⟨h1, l', h2⟩ | ⟨h1, ls, _, lines, l', H, h2, _⟩
  · rw [h2]
    refine ⟨⟨_, rfl⟩, ?_, fun h => absurd h h1⟩
    rintro ⟨_, _, h⟩; cases h
  · rw [h2]
    exact ⟨⟨_, rfl⟩, fun _ => h1, fun _ => ⟨_, _, rfl⟩⟩

/-- The text of the lines: the texts found in the words, broken at some places, with hyphens added. -/
theorem any_reflow (c : AnyCall rt env dict opts text n l seqs tokens tks maxWidth W)
    (hf : ∀ xs ∈ tks, ∃ x ∈ xs, x.text ≠ []) {Q : Bool → List Sym → Option Sym → Prop} {ls : List Line}
    (h : Layout (hyOf (new env dict opts)) Q false true (styledSyms (splitterOf env dict (defaultOptions opts)) tks) ls) :
    Reflow (List.replicate n 0x20) (fun e => e = [] ∨ e = [0x2D]) (fun _ e => e = [] ∨ e = [0x2D])
      (joined (textsOf tks)) (ls.map (Line.text (List.replicate n 0x20))) := by
  have hl := lossless (env := env) (dict := dict) c.sane
  have hfull : ∀ t ∈ tks.map full, t ≠ [] ∧ ∀ x ∈ t, x.text ≠ [] := by
    intro t ht
    obtain ⟨xs, hxs, rfl⟩ := List.mem_map.mp ht
    exact ⟨full_ne (hf xs hxs), full_text xs⟩
  rw [← full_styled hl] at h
  have e : textsOf tks = (tks.map full).map (fun t => t.flatMap Span.text) := by
    rw [List.map_map]
    exact List.map_congr_left (fun xs _ => (full_flat xs).symm)
  rw [e, ← styled_chars hl _ (fun t ht => (hfull t ht).2)]
  have hc := styled_chain hl _ hfull
  exact layout_reflow h _ (Or.inl rfl) (fun s _ _ _ => hyOf_cases s) (fun _ _ s _ _ _ => hyOf_cases s) hc.1 hc.2

/-- **C93** (partial, as before; and there is some text in every word). After any history, the lines are the texts found in the
words, broken at some places between words or in words, with hyphens added where lines end; sequences found in the words of
this call and of earlier ones are inserted. When the measurer adds up, no such text is wider than requested. -/
theorem C93_lines_partial (c : AnyCall rt env dict opts text 1 l seqs tokens tks maxWidth W) (hW : 0 < W)
    (hf : ∀ xs ∈ tks, ∃ x ∈ xs, x.text ≠ [])
    (ho : (defaultOptions opts).renderHyphens = true → OwnPenalty (defaultOptions opts))
    (wd : Rune → Int) (hwd : SumOf text (textsOf tks) wd)
    (h : leftAlignUniform rt env l tokens maxWidth = .ok (some lines, l')) :
    ∃ shown, Reflow [0x20] (fun e => e = [] ∨ e = [0x2D]) (fun _ e => e = [] ∨ e = [0x2D]) (joined (textsOf tks)) shown ∧
      List.Forall₂ (Sprinkled (seqs ++ seqsOf tks)) shown lines ∧ ∀ s ∈ shown, text s ≤ W := by
  rcases any_exact c hW with ⟨_, l'', h1⟩ | ⟨_, ls, h1, lines', l'', H, h2, h3, h4⟩
  · rw [h1] at h; cases h
  · rw [h2] at h
    cases h
    have hl := lossless (env := env) (dict := dict) c.sane
    refine ⟨_, any_reflow c hf h1, wrapped_sprinkled h3 h4 ?_, ?_⟩
    · have e : parts (styledSyms (splitterOf env dict (defaultOptions opts)) tks) =
          (styledPieces (splitterOf env dict (defaultOptions opts)) tks).map Piece.text := by
        rw [styledSyms_eq, parts_syms, ← parPieces_text, ← styledPieces_eq]
      rw [layout_parts h1, List.drop_zero, ← e]
      exact List.prefix_rfl
    · intro s hs
      obtain ⟨x, hx, rfl⟩ := List.mem_map.mp hs
      have hfull : ∀ t ∈ tks.map full, ∀ x ∈ t, x.text ≠ [] := by
        intro t ht
        obtain ⟨xs, hxs, rfl⟩ := List.mem_map.mp ht
        exact full_text xs
      have hc : chars (styledSyms (splitterOf env dict (defaultOptions opts)) tks) = joined (textsOf tks) := by
        rw [← full_styled hl, styled_chars hl _ hfull, List.map_map]
        exact congrArg joined (List.map_congr_left (fun xs _ => full_flat xs))
      exact (layout_widths c.sane hc (fun hb => styled_whole (splitterOf env dict (defaultOptions opts)) hb _) wd hwd
        (layout_hy (fun s hs => hyOf_own ho s hs) h1) x hx).1

end

/-! ## The default options -/

section
variable {F : Type} [Arith F] [Laws F]
attribute [local irreducible] defaultText

/-- Words that a default line breaker takes: any code points; no word ends within a sequence, in a parameter of three
digits; the first one starts with some text; their total width, sequences included, with the requested one is represented exactly. -/
structure OrdinaryAny (env : Env) (tokens : List (List Rune)) (W : Int) : Prop where
  short : ∀ t ∈ tokens, (t.length : Int) < 2 ^ 63
  whole : ∀ t ∈ tokens, ¬ EndsLong env t
  valid : ∀ t ∈ tokens, ∀ r ∈ t, 0 ≤ r ∧ r ≤ 0x10FFFF
  first : ∃ r t rest, tokens = (r :: t) :: rest ∧ r ≠ 0x1B
  exact : defaultText (List.intercalate [0x20] tokens) + 1 + |W| ≤ 2 ^ 53

theorem styled_first {env : Env} {x : Span} (h : x.Styled env) (ht : x.text = []) :
    x.runes = [] ∨ x.runes.head? = some 0x1B := by
  unfold Span.runes
  rw [ht]
  rcases h.1 with e | ⟨s, _, _, _, e⟩
  · rcases h.2 with e' | ⟨s, _, _, _, e'⟩
    · left; rw [e, e']; rfl
    · right; rw [e, e']; simp [CtlSeq.runes, introducer]
  · right; rw [e]; simp [CtlSeq.runes, introducer]

theorem found_first {env : Env} {xs : List Span} {r : Rune} {t : List Rune} (hr : r ≠ 0x1B)
    (h : xs.flatMap Span.runes = r :: t) (hs : ∀ x ∈ xs, x.Styled env) : ∃ x ∈ xs, x.text ≠ [] := by
  induction xs with
  | nil => simp at h
  | cons x xs ih =>
    by_cases ht : x.text = []
    · rcases styled_first (hs x (by simp)) ht with e | e
      · rw [List.flatMap_cons, e, List.nil_append] at h
        obtain ⟨y, h1, h2⟩ := ih h (fun y hy => hs y (by simp [hy]))
        exact ⟨y, by simp [h1], h2⟩
      · exfalso
        rw [List.flatMap_cons] at h
        cases hx : x.runes with
        | nil => rw [hx] at e; cases e
        | cons a as =>
          rw [hx] at e h
          simp only [List.head?_cons, Option.some.injEq] at e
          simp only [List.cons_append, List.cons.injEq] at h
          exact hr (by rw [← h.1, e])
    · exact ⟨x, by simp, ht⟩

theorem texts_mem {tokens : List (List Rune)} {tks : List (List Span)}
    (h : List.Forall₂ (fun t xs => xs.flatMap Span.runes = t) tokens tks) :
    ∀ u ∈ textsOf tks, ∃ t ∈ tokens, ∀ r ∈ u, r ∈ t := by
  induction h with
  | nil => intro u hu; cases hu
  | @cons t xs ts tks h1 _ ih =>
    intro u hu
    rcases List.mem_cons.mp hu with rfl | hu
    · refine ⟨t, by simp, fun r hr => ?_⟩
      obtain ⟨x, hx, hr⟩ := List.mem_flatMap.mp hr
      rw [← h1]
      exact List.mem_flatMap.mpr ⟨x, hx, by simp [Span.runes, hr]⟩
    · obtain ⟨t', h2, h3⟩ := ih u hu
      exact ⟨t', by simp [h2], h3⟩

theorem texts_sum {tokens : List (List Rune)} {tks : List (List Span)} (f : Rune → Int) (hf : ∀ r, 0 ≤ f r)
    (h : List.Forall₂ (fun t xs => xs.flatMap Span.runes = t) tokens tks) :
    ((List.intercalate [0x20] (textsOf tks)).map f).sum ≤ ((List.intercalate [0x20] tokens).map f).sum := by
  have h1 : ∀ xs : List Span, ((xs.flatMap Span.text).map f).sum ≤ ((xs.flatMap Span.runes).map f).sum := by
    intro xs
    induction xs with
    | nil => simp
    | cons x xs ih =>
      have a := sum_nonneg x.start f hf
      have b := sum_nonneg x.stop f hf
      simp only [List.flatMap_cons, List.map_append, List.sum_append, Span.runes] at ih ⊢
      omega
  induction h with
  | nil => simp [textsOf]
  | @cons t xs ts tks ht h2 ih =>
    have h3 := h1 xs
    rw [ht] at h3
    cases h2 with
    | nil => simpa [textsOf, List.intercalate] using h3
    | @cons t' xs' ts' tks' ht' h2' =>
      simp only [textsOf, List.map_cons, List.intercalate_cons_cons, List.map_append, List.sum_append] at ih ⊢
      omega

theorem any_default {rt : Runtime} {env : Env} {dict : Dictionary} {tokens : List (List Rune)} {W : Int} {l : LineBreaker F}
    {seqs : List (List Rune)} (hu : AnyUsed env dict [] l seqs) (hw : Walks rt) (hd : AsciiDigits env)
    (h : OrdinaryAny env tokens W) :
    ∃ tks, AnyCall rt env dict [] defaultText 1 l seqs tokens tks (Arith.ofInt W : F) W ∧
      List.Forall₂ (fun t xs => xs.flatMap Span.runes = t) tokens tks ∧
      SumOf defaultText (textsOf tks) (fun r => plainWidth r % 4) := by
  obtain ⟨tks, h1, h2, h3⟩ := C93_found rt hd tokens (fun t ht => ⟨h.short t ht, h.whole t ht⟩)
  have hv : ∀ t : List Rune, (∀ r ∈ t, r = 0x20 ∨ r = 0x2D ∨ ∃ u ∈ textsOf tks, r ∈ u) → ∀ r ∈ t, 0 ≤ r ∧ r ≤ 0x10FFFF := by
    intro t ht r hr
    rcases ht r hr with rfl | rfl | ⟨u, hu, hr⟩
    · decide
    · decide
    · obtain ⟨t', g1, g2⟩ := texts_mem h2 u hu
      exact h.valid t' g1 r (g2 r hr)
  have hsum : SumOf defaultText (textsOf tks) (fun r => plainWidth r % 4) := fun t ht => defaultText_sum t (hv t ht)
  refine ⟨tks, ⟨hu, sane_default, hw, hd, h1, ?_, ?_, ?_⟩, h2, hsum⟩
  · obtain ⟨r, t, rest, rfl, hr⟩ := h.first
    cases h2 with
    | @cons _ xs _ xss e _ =>
      exact ⟨xs, rfl, found_first hr e (h3 xs (by simp))⟩
  · show Arith.round (Arith.mul (Arith.ofInt W) (Arith.ofInt 1)) = _
    rw [Laws.mul_one, Laws.round_int]
  · have hl := lossless (env := env) (dict := dict) (sane_default (F := F))
    have hfull : ∀ t ∈ tks.map full, ∀ x ∈ t, x.text ≠ [] := by
      intro t ht
      obtain ⟨xs, hxs, rfl⟩ := List.mem_map.mp ht
      exact full_text xs
    have hc : chars (styledSyms (splitterOf env dict (defaultOptions ([] : List (Opt F)))) tks) = joined (textsOf tks) := by
      rw [← full_styled hl, styled_chars hl _ hfull, List.map_map]
      exact congrArg joined (List.map_congr_left (fun xs _ => full_flat xs))
    obtain ⟨t1, t2⟩ := text_syms hc hsum (measureOf (defaultOptions ([] : List (Opt F))) defaultText)
      (measureOf_text _ _) (measureOf_space _ _) _ (fun _ h => h)
    rw [← t2, lineText_of_chars hc]
    have e : (measureOf (defaultOptions ([] : List (Opt F))) defaultText).hyphen = 1 := by
      show (if true = true then defaultText [0x2D] else 0) = 1
      rw [defaultText_hyphen]; rfl
    rw [e]
    have hle := texts_sum (fun r => plainWidth r % 4) (fun r => Int.emod_nonneg _ (by decide)) h2
    have hv' : ∀ r ∈ List.intercalate [0x20] tokens, 0 ≤ r ∧ r ≤ 0x10FFFF := by
      intro r hr
      have : ∀ ts : List (List Rune), (∀ t ∈ ts, ∀ r ∈ t, 0 ≤ r ∧ r ≤ 0x10FFFF) → ∀ r ∈ List.intercalate [0x20] ts, 0 ≤ r ∧ r ≤ 0x10FFFF := by
        intro ts
        induction ts with
        | nil => intro _ r hr; simp [List.intercalate] at hr
        | cons t ts ih =>
          intro hts r hr
          cases ts with
          | nil => exact hts t (by simp) r (by simpa [List.intercalate] using hr)
          | cons u us =>
            rw [List.intercalate_cons_cons] at hr
            simp only [List.mem_append, List.mem_singleton] at hr
            rcases hr with (hr | rfl) | hr
            · exact hts t (by simp) r hr
            · decide
            · exact ih (fun v hv => hts v (by simp [hv])) r hr
      exact this tokens h.valid r hr
    have hx := h.exact
    rw [defaultText_sum _ hv'] at hx
    have := Laws.bound_large (F := F)
    omega

/-- **C93** (partial, as before), with the default options and an integral width: the call returns, whatever the words and the history. -/
theorem C93_default_partial {rt : Runtime} {env : Env} {dict : Dictionary} {tokens : List (List Rune)} {W : Int}
    {l : LineBreaker F} {seqs : List (List Rune)} (hu : AnyUsed env dict [] l seqs) (hw : Walks rt) (hd : AsciiDigits env)
    (h : OrdinaryAny env tokens W) (hW : 0 < W) : ∃ r, leftAlignUniform rt env l tokens (Arith.ofInt W) = .ok r := by
  obtain ⟨tks, c, _, _⟩ := any_default (rt := rt) (F := F) (l := l) hu hw hd h
  exact (C93_no_panic_partial c hW).1

end

/-! ## Cases -/

local instance anyLaws : Laws Rat := ratLaws (2 ^ 53) (le_refl _)

/-- Words with an unknown sequence, nested styles of which one has no text, a parameter of three digits, and a lone ESC. -/
def strangeWords : List (List Rune) := ["a\x1b[4qb", "\x1b[1m\x1b[4mcc\x1b[0m", "\x1b[38;5;200mdd", "\x1bxx"].map runesOf

/-- What StripToken finds in them. -/
def strangeSpans : List (List Span) :=
  [[⟨[], runesOf "a\x1b[4q", []⟩, ⟨[], runesOf "b", []⟩], [⟨runesOf "\x1b[1m", [], []⟩, ⟨runesOf "\x1b[4m", runesOf "cc", runesOf "\x1b[0m"⟩],
    [⟨[], runesOf "\x1b[38;5;200m", []⟩, ⟨[], runesOf "dd", []⟩], [⟨[], runesOf "\x1bxx", []⟩]]

def strangeLines : List (List Rune) := ["a\x1b[4qb", "\x1b[4mcc\x1b[0m \x1b[38;5;", "200mdd \x1bxx"].map runesOf

/-- Checks `Found` by running StripToken. -/
theorem found_run {rt : Runtime} {t : List Rune} {xs : List Span}
    (h : (Ansi.stripToken Env.ascii (t ++ rt.spare t) ⟨0, t.length⟩).map (fun p => p.1.map (fun t =>
      (⟨fieldRunes p.2 t.start, textRunes p.2 t.text, fieldRunes p.2 t.stop⟩ : Span))) = .ok xs) : Found rt Env.ascii t xs := by
  cases e : Ansi.stripToken Env.ascii (t ++ rt.spare t) ⟨0, t.length⟩ with
  | error p => rw [e] at h; cases h
  | ok p => rw [e] at h; exact ⟨p.1, p.2, e, by simpa [Except.map] using h⟩

theorem strange_found : List.Forall₂ (Found forward Env.ascii) strangeWords strangeSpans :=
  .cons (found_run (by decide +kernel)) (.cons (found_run (by decide +kernel)) (.cons (found_run (by decide +kernel))
    (.cons (found_run (by decide +kernel)) .nil)))

theorem strange_call : AnyCall forward Env.ascii (dictOf sampleLines) [unit] demoText 1 (demo []) [] strangeWords strangeSpans
    (Arith.ofInt 10 : Rat) 10 :=
  ⟨.new, sane_demo, forward_walks, digits_ascii, strange_found, ⟨_, rfl, _, List.mem_cons_self, by decide +kernel⟩, demo_scaled 10,
    by decide +kernel⟩

theorem strange_run : ∃ l', leftAlignUniform forward Env.ascii (demo []) strangeWords (Arith.ofInt 10 : Rat) =
    .ok (some strangeLines, l') :=
  linesOf_ok (by decide +kernel)

theorem strange_full : ∀ xs ∈ strangeSpans, ∃ x ∈ xs, x.text ≠ [] := by decide +kernel

example : ∃ shown, Reflow [0x20] (fun e => e = [] ∨ e = [0x2D]) (fun _ e => e = [] ∨ e = [0x2D]) (joined (textsOf strangeSpans)) shown ∧
    List.Forall₂ (Sprinkled ([] ++ seqsOf strangeSpans)) shown strangeLines ∧ ∀ s ∈ shown, demoText s ≤ 10 := by
  obtain ⟨l', h⟩ := strange_run
  exact C93_lines_partial strange_call (by decide) strange_full (fun _ => own_demo) _ (sumOf_demo _) h

/-- A word that does not end with a digit is whole. -/
theorem whole_of_last {env : Env} (hd : AsciiDigits env) {t : List Rune} {r : Rune} (h : t.getLast? = some r) (hr : env.isDigit r = false) :
    ¬ EndsLong env t := by
  intro hc
  obtain ⟨pre, body, e, _, pre2, x, d1, d2, d3, e2, _, _, _, h3⟩ := Ansi.cut_cutShort hd hc
  have hb : body ≠ [] := by
    intro hb; rw [hb] at e2
    have := congrArg List.length e2
    simp at this
  have h2 : t.getLast? = some d3 := by
    have h4 := congrArg List.getLast? e2
    rw [e, getLast?_append_ne hb]
    have : (0x5B :: body : List Rune) = [0x5B] ++ body := rfl
    rw [this, getLast?_append_ne hb] at h4
    rw [h4]; simp
  rw [h] at h2
  cases h2
  rw [hr] at h3
  cases h3

/-- The words above are ordinary. -/
theorem strange_ordinary : OrdinaryAny Env.ascii strangeWords 10 where
  short := by decide +kernel
  whole := by
    have : ∀ t ∈ strangeWords, ∃ r, t.getLast? = some r ∧ Env.ascii.isDigit r = false := by
      intro t ht
      simp only [strangeWords, List.map_cons, List.map_nil, List.mem_cons, List.not_mem_nil, or_false] at ht
      rcases ht with rfl | rfl | rfl | rfl
      · exact ⟨0x62, by decide +kernel⟩
      · exact ⟨0x6D, by decide +kernel⟩
      · exact ⟨0x64, by decide +kernel⟩
      · exact ⟨0x78, by decide +kernel⟩
    intro t ht
    obtain ⟨r, h1, h2⟩ := this t ht
    exact whole_of_last digits_ascii h1 h2
  valid := by decide +kernel
  first := ⟨0x61, _, _, rfl, by decide⟩
  exact := by rw [defaultText_sum _ (by decide +kernel)]; decide +kernel

example : ∃ r, leftAlignUniform forward Env.ascii (new Env.ascii (dictOf sampleLines) [] : LineBreaker Rat) strangeWords
    (Arith.ofInt 10) = .ok r :=
  C93_default_partial .new forward_walks digits_ascii strange_ordinary (by decide)

/-! ## Failures -/

/-- **C93** fails for every paragraph with a word that ends within a sequence, in a parameter of three digits, whatever
the line breaker: without unused capacity the call panics; with unused capacity more runes are found in the word
than it has. -/
theorem C93_cut_fails {F : Type} [Arith F] (rt : Runtime) {env : Env} (hd : AsciiDigits env) (l : LineBreaker F)
    (tokens : List (List Rune)) (maxWidth : F) {t : List Rune} (ht : t ∈ tokens) (hl : (t.length : Int) < 2 ^ 63)
    (hc : EndsLong env t) :
    (rt.spare t = [] → ∃ e, leftAlignUniform rt env l tokens maxWidth = .error e) ∧
    (rt.spare t ≠ [] → ∃ xs, Found rt env t xs ∧ t.length < (xs.flatMap Span.runes).length) := by
  constructor
  · intro hs
    cases h : leftAlignUniform rt env l tokens maxWidth with
    | error e => exact ⟨e, rfl⟩
    | ok p =>
      exfalso
      cases h1 : tokensLoop rt env l tokens l.attrList with
      | error e => rw [leftAlignUniform, leftAlignedNodes, h1] at h; cases h
      | ok q =>
        obtain ⟨tks, h2⟩ := loop_found h1
        obtain ⟨xs, h3⟩ := forall₂_some h2 ht
        exact (found_cut rt hd hl hc h3).1 hs
  · intro hs
    obtain ⟨xs, h⟩ := found_more rt hd hl hs
    exact ⟨xs, h, (found_cut rt hd hl hc h).2⟩

example : linesOf forward (demo []) ["aa", "\x1b[123"] 10 = .error .slice := by decide +kernel

/-- **C93** fails for a word without text: its sequence is lost, and two spaces are left. -/
theorem C93_no_text_fails : linesOf forward (demo []) ["aa", "\x1b[1m", "bb"] 10 = .ok (some [runesOf "aa  bb"]) := by
  decide +kernel

end Verif.Props
