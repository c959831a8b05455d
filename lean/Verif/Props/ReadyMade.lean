import Verif.Props.Text
import Verif.Props.Shipped
import Verif.Props.LimitExact

/-! # C88: a line breaker with the default options, on any text

The pieces of the previous properties put together: a text that is any string, its words found by the
tokenizer, the American patterns shipped with the library, `float64`, the default measurer. -/

namespace Verif.Props
open Verif.Go Verif.Model Verif.Model.LB Verif.Spec Verif.Spec.Ansi Verif.Spec.LB Verif.Proofs Verif.Proofs.LB

attribute [local irreducible] defaultText
attribute [local irreducible] F64.pack F64.maxDouble F64.roundDouble F64.round53

theorem decodeLoop_length (n : Nat) : ∀ s, (decodeLoop n s).length ≤ n := by
  induction n with
  | zero => intro s; simp [decodeLoop]
  | succ n ih =>
    intro s
    cases s with
    | nil => simp [decodeLoop]
    | cons b s =>
      have := ih ((b :: s).drop (decodeRune (b :: s)).2)
      simp only [decodeLoop, List.length_cons]
      omega

theorem intercalate_length (ts : List (List Rune)) (h : ∀ t ∈ ts, t ≠ []) :
    (List.intercalate [0x20] ts).length ≤ 2 * ts.flatten.length := by
  induction ts with
  | nil => simp
  | cons t ts ih =>
    have ht : 0 < t.length := List.length_pos_iff.mpr (h t (by simp))
    cases ts with
    | nil => simp [List.intercalate]; omega
    | cons u us =>
      have := ih (fun t ht => h t (by simp [ht]))
      have e : List.intercalate [0x20] (t :: u :: us) = t ++ [0x20] ++ List.intercalate [0x20] (u :: us) := by
        simp [List.intercalate]
      rw [e]
      simp only [List.length_append, List.length_cons, List.length_nil, List.flatten_cons] at this ⊢
      omega

theorem sum_le_three (t : List Rune) : (t.map (fun r => plainWidth r % 4)).sum ≤ 3 * (t.length : Int) := by
  induction t with
  | nil => simp
  | cons r t ih =>
    have := Int.emod_lt_of_pos (plainWidth r) (by decide : (0 : Int) < 4)
    simp only [List.map_cons, List.sum_cons, List.length_cons]
    push_cast
    omega

theorem mem_intercalate {ts : List (List Rune)} {r : Rune} (h : r ∈ List.intercalate [0x20] ts) :
    r = 0x20 ∨ r ∈ ts.flatten := by
  induction ts with
  | nil => simp at h
  | cons t ts ih =>
    cases ts with
    | nil => simp [List.intercalate] at h; simp [h]
    | cons u us =>
      have e : List.intercalate [0x20] (t :: u :: us) = t ++ [0x20] ++ List.intercalate [0x20] (u :: us) := by
        simp [List.intercalate]
      rw [e] at h
      simp only [List.mem_append, List.mem_singleton] at h
      rcases h with (h | h) | h
      · right; simp [h]
      · exact Or.inl h
      · rcases ih h with h | h
        · exact Or.inl h
        · right; rw [List.flatten_cons]; exact List.mem_append_right _ h

/-- The words of a string are such as a default line breaker takes. -/
theorem ordinary_words {s : List Nat} {tokens : List (List Rune)} {W : Int} (hs : s.length ≤ 2 ^ 49) (hW : |W| ≤ 2 ^ 50)
    (hn : 0x1B ∉ stringRunes s) (ht : tokenizerBreakWordString s = .ok tokens) :
    Ordinary tokens W ∧ ∀ t ∈ tokens, t ≠ [] ∧ ∀ r ∈ t, isSpace r = false := by
  obtain ⟨h1, h2⟩ := tokenizer_words ht
  have hmem : ∀ t ∈ tokens, ∀ r ∈ t, r ∈ stringRunes s := by
    intro t htt r hr
    have : r ∈ tokens.flatten := List.mem_flatten.mpr ⟨t, htt, hr⟩
    rw [h1, List.mem_filter] at this
    exact this.1
  have hlen : tokens.flatten.length ≤ s.length := by
    rw [h1]
    exact Nat.le_trans (List.length_filter_le _ _) (decodeLoop_length _ _)
  have hv : ∀ r ∈ stringRunes s, 0 ≤ r ∧ r ≤ 0x10FFFF := by
    intro r hr
    have := stringRunes_scalar s r hr
    unfold IsScalar at this
    omega
  refine ⟨⟨fun t htt r hr => hv r (hmem t htt r hr), fun t htt => ⟨?_, fun hi => ?_⟩, ?_⟩, h2⟩
  · have h3 : t.length ≤ tokens.flatten.length := (List.sublist_flatten_of_mem htt).length_le
    have : (t.length : Int) ≤ 2 ^ 49 := by exact_mod_cast Nat.le_trans (Nat.le_trans h3 hlen) hs
    exact lt_of_le_of_lt this (by norm_num)
  · exact hn (hmem t htt 0x1B (hi.subset (by simp [introducer])))
  · rw [defaultText_sum _ (fun r hr => by
      rcases mem_intercalate hr with rfl | h
      · decide
      · obtain ⟨t, a, b⟩ := List.mem_flatten.mp h
        exact hv r (hmem t a r b))]
    have h3 := sum_le_three (List.intercalate [0x20] tokens)
    have h4 : (List.intercalate [0x20] tokens).length ≤ 2 * 2 ^ 49 :=
      Nat.le_trans (intercalate_length tokens (fun t h => (h2 t h).1)) (Nat.mul_le_mul_left 2 (Nat.le_trans hlen hs))
    have h5 : ((List.intercalate [0x20] tokens).length : Int) ≤ 2 * 2 ^ 49 := by exact_mod_cast h4
    norm_num at *
    omega

/-- **C88.** Take the dictionary that `New()` loads. For every text, which is any string of at most 2^49 bytes
without ESC, valid UTF-8 or not, and every whole width from 1 to 86000, a line breaker made with the default
options, whatever texts it set before and in whatever order the runtime walks maps, on the words found by the
tokenizer:

* returns, with lines or ErrCannotBeSet, and may be used again;
* if there are lines, none is wider than requested, and they are the words in order, cut between words or inside
  a word, with at most a hyphen added at the end of a line;
* there are lines if no word is wider than requested, and no word but the first is wider than 51 columns or starts
  with a mark or a hyphen;
* there is one line if the words with spaces in between fit, and the width is at most 4997 or 53 columns are left. -/
theorem C88_ready_made (env : Env) (he : UsualRunes env) (hd : AsciiDigits env) :
    ∃ dict, loadEmbedded env (langToPattern (hyphenatorOptions []).lang) = some (.ok dict) ∧
      ∀ (rt : Runtime) (l : LineBreaker F64) (s : List Nat) (W : Int), Walks rt → Used env dict [] l →
        s.length ≤ 2 ^ 49 → 0x1B ∉ stringRunes s → 0 < W → W ≤ 86000 →
        ∃ tokens result l', tokenizerBreakWordString s = .ok tokens ∧
          leftAlignUniform rt env l tokens (Arith.ofInt W) = .ok (result, l') ∧ Used env dict [] l' ∧
          (∀ lines, result = some lines →
            (∀ line ∈ lines, ∃ w, widthsOf .init line [] = .ok w ∧ w ≤ W) ∧
            Reflow [0x20] (fun e => e = [] ∨ e = [0x2D]) (fun _ e => e = [] ∨ e = [0x2D]) (joined tokens) lines) ∧
          (tokens ≠ [] → (∀ w ∈ tokens, ∃ n, widthsOf .init w [] = .ok n ∧ n ≤ W) →
            (∀ w ∈ tokens.tail, (∃ n, widthsOf .init w [] = .ok n ∧ n ≤ 51) ∧ PlainWord env w) →
            ∃ lines, result = some lines) ∧
          (tokens ≠ [] → (∃ n, widthsOf .init (List.intercalate [0x20] tokens) [] = .ok n ∧ n ≤ W ∧
              (W ≤ 4997 ∨ n + 53 ≤ W)) →
            result = some [List.intercalate [0x20] tokens]) := by
  obtain ⟨dict, h1, _⟩ := shipped_load env he _ (langToPattern_embedded (hyphenatorOptions []).lang)
  refine ⟨dict, h1, fun rt l s W hw hu hs hn hW hW2 => ?_⟩
  obtain ⟨tokens, ht⟩ : ∃ tokens, tokenizerBreakWordString s = .ok tokens :=
    ⟨_, fieldsFunc_ref (stringRunes s) isSpace⟩
  have hWa : |W| ≤ 2 ^ 50 := by
    rw [abs_of_pos hW]; exact le_trans hW2 (by norm_num)
  obtain ⟨ho, hwords⟩ := ordinary_words hs hWa hn ht
  have c := call_default (F := F64) hu hw hd ho
  have hne : ∀ t ∈ tokens, t ≠ [] := fun t h => (hwords t h).1
  have hf : tokens.head? ≠ some [] := fun e => hne [] (List.mem_of_mem_head? e) rfl
  obtain ⟨⟨result, l'⟩, hr⟩ := C54_no_panic_partial c hW hf
  have hwid : ∀ t : List Rune, (∀ r ∈ t, 0 ≤ r ∧ r ≤ 0x10FFFF) → ∀ b, (∃ n, widthsOf .init t [] = .ok n ∧ n ≤ b) → defaultText t ≤ b := by
    intro t hv b ⟨n, hn, hb⟩
    rw [defaultText_sum t hv]
    have := widthsOf_table .start t [] rfl hv
    rw [this] at hn
    cases hn
    exact hb
  refine ⟨tokens, result, l', ht, hr, .call rt tokens _ result hu ho.escapeFree hr, ?_, ?_, ?_⟩
  · rintro lines rfl
    exact ⟨C51_default_partial hu hw hd ho hW hf hr, C50_text_kept c hW hne hr⟩
  · intro h0 hfit hsh
    obtain ⟨lines, l'', h⟩ := C69_default_partial (F := F64) hu hw hd ho hW hW2 h0 hne
      (fun w hw => hwid w (ho.valid w hw) W (hfit w hw))
      (fun w hw => hwid w (ho.valid w (List.mem_of_mem_tail hw)) 51 (hsh w hw).1) (fun w hw => (hsh w hw).2)
    rw [h] at hr
    cases hr
    exact ⟨lines, rfl⟩
  · rintro h0 ⟨n, hn, hnW, hW3⟩
    have hv : ∀ r ∈ List.intercalate [0x20] tokens, 0 ≤ r ∧ r ≤ 0x10FFFF := by
      intro r hr
      rcases mem_intercalate hr with rfl | h
      · decide
      · obtain ⟨t, a, b⟩ := List.mem_flatten.mp h
        exact ho.valid t a r b
    have hle := hwid _ hv n ⟨n, hn, le_refl _⟩
    have h0' := defaultText_nonneg (List.intercalate [0x20] tokens)
    obtain ⟨l'', h⟩ : ∃ l'', leftAlignUniform rt env l tokens (Arith.ofInt W : F64) =
        .ok (some [List.intercalate [0x20] tokens], l'') := by
      rcases hW3 with hW3 | hW3
      · exact C55_default (F := F64) hu hw hd ho hW hW3 h0 hf (by omega)
      · exact C79_one_line hu hw hd ho h0 hf hW (by omega) (by omega)
    rw [h] at hr
    cases hr
    rfl

/-- A text with a word in French, and a byte that is not UTF-8. -/
def readyText : List Nat := utf8s (runesOf "Typesetting  a naïve\ttext, ") ++ [0xFF] ++ utf8s (runesOf " of\nwords")

def readyTokens : List (List Rune) :=
  [runesOf "Typesetting", runesOf "a", runesOf "naïve", runesOf "text,", [0xFFFD], runesOf "of", runesOf "words"]

theorem ready_tokens : tokenizerBreakWordString readyText = .ok readyTokens := by decide +kernel

theorem ready_width (b : Int) (w : List Rune) (hv : ∀ r ∈ w, 0 ≤ r ∧ r ≤ 0x10FFFF)
    (h : (w.map (fun r => plainWidth r % 4)).sum ≤ b) : ∃ n, widthsOf .init w [] = .ok n ∧ n ≤ b :=
  ⟨_, widthsOf_table .start w [] rfl hv, h⟩

/-- It is set in lines of 12 columns, in the words of C88. -/
example (l : LineBreaker F64) (dict : Dictionary)
    (h : loadEmbedded Env.ascii (langToPattern (hyphenatorOptions []).lang) = some (.ok dict))
    (hu : Used Env.ascii dict [] l) :
    ∃ lines l', leftAlignUniform forward Env.ascii l readyTokens (Arith.ofInt 12 : F64) = .ok (some lines, l') ∧
      (∀ line ∈ lines, ∃ w, widthsOf .init line [] = .ok w ∧ w ≤ 12) := by
  obtain ⟨d, h1, h2⟩ := C88_ready_made Env.ascii usual_ascii digits_ascii
  rw [h] at h1
  cases h1
  obtain ⟨tokens, result, l', h3, h4, _, h5, h6, _⟩ := h2 forward l readyText 12 forward_walks hu (by decide +kernel)
    (by decide +kernel) (by decide) (by decide)
  rw [ready_tokens] at h3
  cases h3
  have hv : ∀ w ∈ readyTokens, ∀ r ∈ w, 0 ≤ r ∧ r ≤ 0x10FFFF := by decide +kernel
  have hw : ∀ w ∈ readyTokens, (w.map (fun r => plainWidth r % 4)).sum ≤ 12 := by decide +kernel
  obtain ⟨lines, e⟩ := h6 (by decide) (fun w h => ready_width 12 w (hv w h) (hw w h))
    (fun w h => ⟨ready_width 51 w (hv w (List.mem_of_mem_tail h)) (le_trans (hw w (List.mem_of_mem_tail h)) (by decide)), by
      revert w; unfold PlainWord IsMark; decide +kernel⟩)
  exact ⟨lines, l', by rw [h4, e], (h5 lines e).1⟩

end Verif.Props
