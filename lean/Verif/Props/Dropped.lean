import Verif.Props.AnyText
import Verif.Props.Reading
import Verif.Proofs.LBIndent

/-! # C64 for words of any runes: sequences found with some text are written, the others are lost -/

set_option linter.unusedSectionVars false

namespace Verif.Props
open Verif.Go Verif.Model Verif.Model.LB Verif.Spec Verif.Spec.Ansi Verif.Spec.LB Verif.Proofs Verif.Proofs.LB

section
variable {F : Type} [Arith F] [Laws F] {rt : Runtime} {env : Env} {dict : Dictionary} {opts : List (Opt F)}
  {text : List Rune → Int} {n : Nat} {l l' : LineBreaker F} {seqs : List (List Rune)} {tokens tokens' : List (List Rune)}
  {tks tks' : List (List Span)} {maxWidth : F} {W : Int} {lines : List (List Rune)}

/-- **C64** (partial: no word ends within a sequence, in a parameter of three digits; there is some text in the first
word). Words may hold any runes. After any history, the sequences found with some text are written in a line. -/
theorem C64_any_partial (c : AnyCall rt env dict opts text n l seqs tokens tks maxWidth W) (hW : 0 < W)
    (h : leftAlignUniform rt env l tokens maxWidth = .ok (some lines, l')) :
    ∀ xs ∈ tks, ∀ x ∈ xs, x.text ≠ [] → (∃ line ∈ lines, x.start <:+: line) ∧ (∃ line ∈ lines, x.stop <:+: line) := by
  have hsp := lossless (env := env) (dict := dict) c.sane
  rcases any_exact c hW with ⟨_, _, h0⟩ | ⟨_, ls, h1, lines', l'', H, h0, _, h2⟩
  · rw [h0] at h; cases h
  · rw [h0] at h
    cases h
    have hlen : (styledPieces (splitterOf env dict (defaultOptions opts)) tks).length ≤
        (ls.flatMap (fun x => parts x.body)).length := by
      rw [layout_parts h1, styledSyms_eq, parts_syms, ← parPieces_text, ← styledPieces_eq]
      simp
    have key := wrapped_mem h2 hlen
    intro xs hxs x hx hne
    have hp : parts (tokenSyms (splitterOf env dict (defaultOptions opts)) x.text) ≠ [] := by
      have h := (token_token hsp x.text hne).1
      obtain ⟨y, ys, e⟩ := List.exists_cons_of_ne_nil h.ne
      obtain ⟨u, hu⟩ := h.head y (by rw [e]; rfl)
      rw [e, hu]; simp [parts]
    have hmem : ∀ p ∈ dressParts x.start x.stop
        (parts (tokenSyms (splitterOf env dict (defaultOptions opts)) x.text)),
        p ∈ styledPieces (splitterOf env dict (defaultOptions opts)) tks := fun p hp =>
      List.mem_flatMap.mpr ⟨xs, hxs, List.mem_flatMap.mpr ⟨x, hx, hp⟩⟩
    constructor
    · obtain ⟨p, hp, e⟩ := dressParts_first (start := x.start) (stop := x.stop) hp
      obtain ⟨line, k1, k2⟩ := key p (hmem p hp)
      exact ⟨line, k1, List.IsInfix.trans (e ▸ ⟨[], p.text ++ p.stop, by simp⟩) k2⟩
    · obtain ⟨p, hp, e⟩ := dressParts_last (start := x.start) (stop := x.stop) hp
      obtain ⟨line, k1, k2⟩ := key p (hmem p hp)
      exact ⟨line, k1, List.IsInfix.trans (e ▸ ⟨p.start ++ p.text, [], by simp⟩) k2⟩

/-! ## Sequences without text -/

theorem full_blocks {sp : Splitter} (hl : sp.Lossless) (xs : List Span) :
    spansBlocks sp (full xs) = spansBlocks sp xs := by
  induction xs with
  | nil => rfl
  | cons x xs ih =>
    by_cases h : x.text = []
    · have : full (x :: xs) = full xs := by simp [full, h]
      rw [this, ih]
      show _ = tokenBlocks sp x.text ++ _
      rw [h, tokenBlocks_nil hl]; rfl
    · have : full (x :: xs) = x :: full xs := by simp [full, h]
      rw [this]
      show tokenBlocks sp x.text ++ spansBlocks sp (full xs) = tokenBlocks sp x.text ++ spansBlocks sp xs
      rw [ih]

theorem full_par {sp : Splitter} (hl : sp.Lossless) (tks : List (List Span)) :
    parBlocks sp (tks.map full) = parBlocks sp tks := by
  induction tks with
  | nil => rfl
  | cons t ts ih =>
    cases ts with
    | nil => exact full_blocks hl t
    | cons u us =>
      simp only [List.map_cons, parBlocks] at ih ⊢
      rw [ih, full_blocks hl]

theorem full_pieces {sp : Splitter} (hl : sp.Lossless) (tks : List (List Span)) :
    styledPieces sp (tks.map full) = styledPieces sp tks := by
  unfold styledPieces
  rw [List.flatMap_map]
  congr 1
  funext xs
  induction xs with
  | nil => rfl
  | cons x xs ih =>
    by_cases h : x.text = []
    · have : full (x :: xs) = full xs := by simp [full, h]
      rw [this, ih, List.flatMap_cons, h, tokenSyms_nil hl]; rfl
    · have : full (x :: xs) = x :: full xs := by simp [full, h]
      rw [this, List.flatMap_cons, List.flatMap_cons, ih]

/-- **C64 fails** for every sequence found without text, whatever the history, the words and the width: the call
does the same, in every respect, when such spans are left out of the words or replaced by others. -/
theorem C64_no_text_fails (hs : Sane (defaultOptions opts) text n) (hu : AnyUsed env dict opts l seqs)
    (hf : List.Forall₂ (Found rt env) tokens tks) (hf' : List.Forall₂ (Found rt env) tokens' tks')
    (he : tks'.map (fun xs => xs.filter (fun x => decide (x.text ≠ []))) =
      tks.map (fun xs => xs.filter (fun x => decide (x.text ≠ [])))) :
    leftAlignUniform rt env l tokens' maxWidth = leftAlignUniform rt env l tokens maxWidth := by
  obtain ⟨H, hk, _⟩ := any_keeps hs hu
  have hl := lossless (env := env) (dict := dict) hs
  have hlen : tks'.length = tks.length := by simpa using congrArg List.length he
  suffices h : leftAlignedNodes rt env l tokens' = leftAlignedNodes rt env l tokens by
    unfold leftAlignUniform; rw [h]
  cases hf with
  | nil =>
    cases hf' with
    | nil => rfl
    | cons _ _ => simp at hlen
  | @cons w' b' ws' bs' a b =>
    cases hf' with
    | nil => simp at hlen
    | @cons w'' b'' ws'' bs'' a' bb =>
      rw [leftAlignedNodes_eq (hk.splits hs) (measureOf (defaultOptions opts) text) _ _
          (found_all (List.Forall₂.cons a b)) (by simp) H hk.list,
        leftAlignedNodes_eq (hk.splits hs) (measureOf (defaultOptions opts) text) _ _
          (found_all (List.Forall₂.cons a' bb)) (by simp) H hk.list]
      rw [← styledPieces_eq, ← styledPieces_eq]
      have e1 := full_pieces hl (b'' :: bs'')
      have e2 := full_par hl (b'' :: bs'')
      have e3 : (b'' :: bs'').map full = (b' :: bs').map full := he
      rw [e3, full_pieces hl] at e1
      rw [e3, full_par hl] at e2
      rw [e1, e2]

/-- **C93**, from the runes: what is found in a word is what C102 says, whatever the unused capacity. -/
theorem C93_reads (rt : Runtime) (hd : AsciiDigits env) (t : List Rune) (us : List Lexeme) (hl : (t.length : Int) < 2 ^ 63)
    (hr : Reads env t us) : Found rt env t ((results us).map (fun p => ⟨p.1, p.2.1, p.2.2⟩)) := by
  have he : (⟨0, t.length⟩ : View).elems (t ++ rt.spare t) = t := by simp [View.elems]
  have hv : (⟨0, t.length⟩ : View).Valid (t ++ rt.spare t) := by simp [View.Valid]
  obtain ⟨us', toks, _, h2, _, h4, h5⟩ := C102_results env hd (t ++ rt.spare t) ⟨0, t.length⟩ ⟨hv, hl⟩
    (by rw [he]; exact (C102_readable env hd t).mp ⟨us, hr⟩)
  rw [he] at h2
  have := h2 us hr
  subst this
  refine ⟨toks, _, h4, ?_⟩
  rw [← h5, List.map_map]
  apply List.map_congr_left
  intro tok _
  obtain ⟨x, a, b, r⟩ := tok
  cases x <;> cases a <;> cases b <;> rfl

end

/-! ## Cases -/

local instance droppedLaws : Laws Rat := ratLaws (2 ^ 53) (le_refl _)

/-- The sequences of the word `cc` are written, ... -/
example : (∃ line ∈ strangeLines, runesOf "\x1b[4m" <:+: line) ∧ (∃ line ∈ strangeLines, runesOf "\x1b[0m" <:+: line) := by
  obtain ⟨l', h⟩ := strange_run
  exact C64_any_partial strange_call (by decide) h
    [⟨runesOf "\x1b[1m", [], []⟩, ⟨runesOf "\x1b[4m", runesOf "cc", runesOf "\x1b[0m"⟩] (by decide +kernel)
    ⟨runesOf "\x1b[4m", runesOf "cc", runesOf "\x1b[0m"⟩ (by decide +kernel) (by decide +kernel)

/-- ... the one before it, without text, is not. -/
example : ∀ line ∈ strangeLines, ¬ runesOf "\x1b[1m" <:+: line := by decide +kernel

/-- A start sequence at the end of a word, and a word that is only a sequence, are as if they were not there. -/
example (maxWidth : Rat) :
    leftAlignUniform forward Env.ascii (demo []) (["aa\x1b[1m", "\x1b[0m", "bbbb"].map runesOf) maxWidth =
      leftAlignUniform forward Env.ascii (demo []) (["aa", "", "bbbb"].map runesOf) maxWidth :=
  C64_no_text_fails (tks := [[⟨[], runesOf "aa", []⟩], [⟨[], [], []⟩], [⟨[], runesOf "bbbb", []⟩]])
    (tks' := [[⟨[], runesOf "aa", []⟩, ⟨runesOf "\x1b[1m", [], []⟩], [⟨[], [], runesOf "\x1b[0m"⟩], [⟨[], runesOf "bbbb", []⟩]])
    sane_demo .new
    (.cons (found_run (by decide +kernel)) (.cons (found_run (by decide +kernel)) (.cons (found_run (by decide +kernel)) .nil)))
    (.cons (found_run (by decide +kernel)) (.cons (found_run (by decide +kernel)) (.cons (found_run (by decide +kernel)) .nil)))
    (by decide +kernel)

example : Found forward Env.ascii oddText ((results oddUnits).map (fun p => ⟨p.1, p.2.1, p.2.2⟩)) :=
  C93_reads forward ascii_digits oddText oddUnits (by decide) oddText_reads

end Verif.Props
