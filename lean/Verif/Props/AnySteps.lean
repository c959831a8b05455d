import Verif.Props.Steps
import Verif.Props.AnyWords

/-! # C100 for words of any runes -/

set_option linter.unusedSectionVars false

namespace Verif.Props
open Verif.Go Verif.Model Verif.Model.LB Verif.Spec Verif.Spec.Ansi Verif.Spec.LB Verif.Proofs Verif.Proofs.LB

theorem weight_spans {sp : Splitter} (hl : sp.Lossless) (xs : List Span) :
    weight (spansSyms sp xs) ≤ 5 * (xs.flatMap Span.text).length := by
  induction xs with
  | nil => exact Nat.zero_le _
  | cons x xs ih =>
    have h := weight_token hl x.text
    unfold spansSyms at ih ⊢
    rw [List.flatMap_cons, weight_append, List.flatMap_cons, List.length_append]
    omega

theorem weight_styled {sp : Splitter} (hl : sp.Lossless) : ∀ tks : List (List Span),
    weight (styledSyms sp tks) ≤ 5 * (textsOf tks).flatten.length + 3 * (tks.length - 1)
  | [] => Nat.zero_le _
  | [t] => by
    have := weight_spans hl t
    simpa [styledSyms, textsOf] using this
  | t :: u :: ts => by
    have h1 := weight_spans hl t
    have h2 := weight_styled hl (u :: ts)
    have e : styledSyms sp (t :: u :: ts) = spansSyms sp t ++ .gap :: styledSyms sp (u :: ts) := rfl
    have e2 : weight (.gap :: styledSyms sp (u :: ts)) = 3 + weight (styledSyms sp (u :: ts)) := by simp [weight, nodesOf]
    have e3 : textsOf (t :: u :: ts) = t.flatMap Span.text :: textsOf (u :: ts) := rfl
    rw [e, weight_append, e2, e3, List.flatten_cons, List.length_append]
    simp only [List.length_cons] at h2 ⊢
    omega

section
variable {F : Type} [Arith F] [Laws F] {rt : Runtime} {env : Env} {dict : Dictionary} {opts : List (Opt F)}
  {text : List Rune → Int} {n : Nat} {l : LineBreaker F} {seqs : List (List Rune)} {tokens : List (List Rune)}
  {tks : List (List Span)} {maxWidth : F} {W : Int}

/-- **C100.** Words of any runes, after any history: the number of rounds is at most quadratic in the number of words and of
runes of text that StripToken finds in them. Sequences, of this paragraph or of earlier ones, add nothing. -/
theorem C100_any (hs : Sane (defaultOptions opts) text n) (hu : AnyUsed env dict opts l seqs) (ho : OneWalk rt)
    (hf : List.Forall₂ (Found rt env) tokens tks) (hne : tokens ≠ []) (maxWidth : F) (N : Nat)
    (hN : (textsOf tks).flatten.length + tokens.length = N) :
    searchSteps rt env l tokens maxWidth ≤ 75 * (N * N) + 60 * N + 2 := by
  obtain ⟨H, hk, _⟩ := any_keeps hs hu
  unfold searchSteps
  rw [leftAlignedNodes_eq (hk.splits hs) (measureOf (defaultOptions opts) text) _ _ (found_all hf) hne H hk.list]
  have h1 := parNodes_length l (measureOf (defaultOptions opts) text) H.length
    (parBlocks (splitterOf env dict (defaultOptions opts)) tks)
  rw [← styledSyms_eq] at h1
  have h2 := weight_styled (lossless (env := env) (dict := dict) hs) tks
  rw [← hf.length_eq] at h2
  have h3 := C100_search rt ho l.toOptions (nds (parNodes l (measureOf (defaultOptions opts) text) H.length
    (parBlocks (splitterOf env dict (defaultOptions opts)) tks))) (l.scale maxWidth)
  have hk := List.length_pos_iff.mpr hne
  have h4 : (nds (parNodes l (measureOf (defaultOptions opts) text) H.length
    (parBlocks (splitterOf env dict (defaultOptions opts)) tks))).length ≤ 5 * N := by
    simp only [nds, List.length_map]
    omega
  have h5 := Nat.mul_le_mul h4 h4
  have e : 5 * N * (5 * N) = 25 * (N * N) := by rw [Nat.mul_mul_mul_comm]
  simp only []
  omega

/-- **C100.** Words of any runes, after any history: with `k` places where a line may start according to the lines acceptable
before, at least `k (k - 1) / 2` rounds. -/
theorem C100_places_any (c : AnyCall rt env dict opts text n l seqs tokens tks maxWidth W) (hW : 0 < W)
    (rests : List (List Sym)) (hn : rests.Nodup)
    (hr : ∀ r ∈ rests, Left (Acceptable (measureOf (defaultOptions opts) text) W (Tolerated (defaultOptions opts)))
      (styledSyms (splitterOf env dict (defaultOptions opts)) tks) false r) :
    rests.length * (rests.length - 1) ≤ 2 * searchSteps rt env l tokens maxWidth := by
  obtain ⟨H, hk, _⟩ := any_keeps c.sane c.used
  have ho := hk.options
  have hu : Usual l.toOptions := ho ▸ usual_new c.sane
  have hok : okRatio l.toOptions = okRatio (defaultOptions opts) := by rw [ho]; rfl
  have hsy : syms (parBlocks (splitterOf env dict (defaultOptions opts)) tks) =
      styledSyms (splitterOf env dict (defaultOptions opts)) tks := (styledSyms_eq _ _).symm
  have hne : tokens ≠ [] := by
    rintro rfl
    obtain ⟨xs, h1, _⟩ := c.first
    have := c.found
    cases this
    cases h1
  have h := align_steps (rt := rt) c.walks (hk.splits c.sane) (hk.setup c.sane) tokens _ (found_all c.found) hne H hk.list
    maxWidth W (by rw [ho]; exact c.scaled) hW hu.tol (hu.tame (hk.setup c.sane)) (by rw [hsy]; exact any_starts c)
    (by rw [hsy]; exact c.exact) rests hn (by rw [hsy, hok]; exact hr)
  rw [Nat.mul_sub, Nat.mul_one]
  omega

/-- **C100.** `k` words with sequences, in each of which StripToken finds one text that may be set alone on a line, after any
history: at least `(k - 1) (k - 2) / 2` rounds. -/
theorem C100_words_any (c : AnyCall rt env dict opts text n l seqs tokens tks maxWidth W) (hW : 0 < W)
    (plain : List (List Rune)) (hp : ∀ t ∈ plain, EscapeFree t) (hone : fullTexts tks = plain.map (fun t => [t]))
    (wd : Rune → Int) (hwd : SumOf text plain wd) (τ B : Int)
    (hτ : Arith.le (Arith.tenths τ) (defaultOptions opts).tolerance = true) (hB : 10 * B ≤ 6 * τ)
    (hfit : ∀ w ∈ plain, text w ≤ W) (hfull : ∀ w ∈ plain, W - B ≤ text w) (hplain : ∀ w ∈ plain.tail, PlainWord env w) :
    (tokens.length - 1) * (tokens.length - 2) ≤ 2 * searchSteps rt env l tokens maxWidth := by
  obtain ⟨e, hne⟩ := alone_syms (lossless (env := env) (dict := dict) c.sane) hone
  obtain ⟨c', _, _, _⟩ := alone_set c hW plain hp hone
  have h := words_left c' hne wd hwd τ B hτ hB hfit hfull hplain
  rw [← e] at h
  have key := C100_places_any c hW _ (restsOf_nodup _ _) h
  have hlen : tokens.length = plain.length := by
    have := congrArg List.length hone
    rw [c.found.length_eq]
    simpa [fullTexts] using this
  rw [restsOf_length] at key
  rw [hlen]
  exact key

end

/-! ## Cases -/

local instance anyStepsLaws : Laws Rat := ratLaws (2 ^ 53) (le_refl _)

/-- The words of `boldPieces`: 19 runes of text, four words. -/
theorem C100_any_case : searchSteps forward Env.ascii (demo []) (boldPieces.map runesOf) (Arith.ofInt 8 : Rat) ≤
    75 * (23 * 23) + 60 * 23 + 2 :=
  C100_any (boldPieces_call [] sane_demo rfl 8 (by decide +kernel)).sane (boldPieces_call [] sane_demo rfl 8 (by decide +kernel)).used
    oneWalk_forward boldPieces_found (by decide) _ 23 (by decide +kernel)

theorem C100_words_any_case : (4 - 1) * (4 - 2) ≤
    2 * searchSteps forward Env.ascii (demo []) (boldPieces.map runesOf) (Arith.ofInt 8 : Rat) :=
  C100_words_any (boldPieces_call [] sane_demo rfl 8 (by decide +kernel)) (by decide) _ pieceWords_free boldPieces_alone
    (fun _ => 1) (sumOf_demo _) 86 51 (by decide +kernel) (by decide) (by decide +kernel) (by decide +kernel) (by
      intro w hw
      have : ∀ w ∈ (pieceWords.map runesOf).tail, w.head?.all (fun r => !punctSplitFunc Env.ascii r && !isHyphenRune r) = true := by
        decide +kernel
      exact plain_of (this w hw))

end Verif.Props
