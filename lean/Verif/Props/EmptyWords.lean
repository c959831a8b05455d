import Verif.Props.LinebreakCases
import Verif.Spec.EmptyWords
import Verif.Proofs.LBChoice
import Verif.Proofs.LBIndent
import Verif.Proofs.LBFills

/-! # C117: empty words

An empty word is one more space. Where a line is broken, all spaces of the run that follow the place disappear; at the end
of the paragraph none does: the last line ends with one space for each empty word there, and has to be large enough for
them. -/

set_option linter.unusedSectionVars false

namespace Verif.Props
open Verif.Go Verif.Model Verif.Model.LB Verif.Spec Verif.Spec.Ansi Verif.Spec.LB Verif.Proofs.LB

/-! ## Symbols of words, some of which are empty -/

/-- Neighbours, when words may be empty. -/
def AdjRun (a b : Sym) : Prop := Adj a b ∨ (a = .gap ∧ b = .gap)

theorem run_before {a b : Sym} (h : AdjRun a b) (h1 : b ≠ .gap) (h2 : ∀ t, b ≠ .part t) : ∃ t, a = .part t := by
  rcases h with (h | ⟨t, h⟩ | h) | h
  · exact h
  · exact absurd h (h2 t)
  · exact absurd h.2 h1
  · exact absurd h.2 h1

theorem run_after {a b : Sym} (h : AdjRun a b) (h1 : ∀ t, a ≠ .part t) : (∃ t, b = .part t) ∨ (b = .gap ∧ a ≠ .soft) := by
  rcases h with (⟨t, h⟩ | h | ⟨h, h'⟩) | h
  · exact absurd h (h1 t)
  · exact Or.inl h
  · exact Or.inr ⟨h', by rcases h with rfl | rfl <;> simp⟩
  · exact Or.inr ⟨h.2, by rw [h.1]; simp⟩

theorem para_head {sp : Splitter} (hl : sp.Lossless) (ts : List (List Rune)) :
    ∀ x ∈ (paraSyms sp ts).head?, (∃ t, x = .part t) ∨ x = .gap := by
  intro x hx
  cases ts with
  | nil => cases hx
  | cons t ts =>
    by_cases ht : t = []
    · subst ht
      cases ts with
      | nil => rw [paraSyms, tokenSyms_nil hl] at hx; cases hx
      | cons u us => rw [paraSyms, tokenSyms_nil hl] at hx; simp at hx; exact Or.inr hx.symm; simp
    · obtain ⟨u, r, e⟩ := para_starts hl t ht ts
      rw [e] at hx
      simp at hx
      exact Or.inl ⟨u, hx.symm⟩

theorem para_runs {sp : Splitter} (hl : sp.Lossless) (ts : List (List Rune)) : (paraSyms sp ts).IsChain AdjRun := by
  have one : ∀ t, (tokenSyms sp t).IsChain AdjRun := by
    intro t
    by_cases ht : t = []
    · subst ht; rw [tokenSyms_nil hl]; simp
    · exact (token_token hl t ht).1.chain.imp fun _ _ h => Or.inl h
  induction ts with
  | nil => simp [paraSyms]
  | cons t ts ih =>
    cases ts with
    | nil => exact one t
    | cons u us =>
      simp only [paraSyms]
      rw [List.isChain_append]
      refine ⟨one t, ?_, ?_⟩
      · rw [List.isChain_cons]
        refine ⟨fun y hy => ?_, ih⟩
        rcases para_head hl (u :: us) y hy with h | h
        · exact Or.inl (Or.inr (Or.inl h))
        · exact Or.inr ⟨rfl, h⟩
      · intro x hx y hy
        simp at hy
        subst hy
        by_cases ht : t = []
        · subst ht; rw [tokenSyms_nil hl] at hx; cases hx
        · rcases (token_token hl t ht).1.last x hx with h | h
          · exact Or.inl (Or.inl h)
          · exact Or.inl (Or.inr (Or.inr ⟨h, rfl⟩))

/-- The symbols dropped after a gap are gaps. -/
theorem drop_chars {rest : List Sym} (hc : (Sym.gap :: rest).IsChain AdjRun) (hf : .part [] ∉ rest) :
    chars (startLine rest) = (chars rest).dropWhile (fun c => decide (c = .gap)) := by
  induction rest with
  | nil => rfl
  | cons z r ih =>
    rw [List.isChain_cons_cons] at hc
    rcases run_after hc.1 (by simp) with ⟨u, rfl⟩ | ⟨rfl, _⟩
    · obtain ⟨a, u', rfl⟩ := List.exists_cons_of_ne_nil (l := u) (by rintro rfl; exact hf (by simp))
      rw [show startLine (.part (a :: u') :: r) = .part (a :: u') :: r from rfl, chars_cons]
      simp [symCh]
    · rw [show startLine (.gap :: r) = startLine r from rfl, ih hc.2 (by intro h; exact hf (by simp [h])), chars_cons]
      simp [symCh]

/-- **The text of a layout**, when words may be empty. -/
theorem layout_runs {hy : Sym → List Rune} {P : Bool → List Sym → Option Sym → Prop} {first : Bool} {ss : List Sym}
    {lines : List Line} (h : Layout hy P false first ss lines) (g : List Rune) {atGap : List Rune → Prop}
    {inWord : Rune → List Rune → Prop} (hg0 : atGap []) (hg : ∀ s ∈ ss, s ≠ .soft → (∀ t, s ≠ .part t) → atGap (hy s))
    (hin : ∀ v r s, [.part (v ++ [r]), s] <:+: ss → s ≠ .gap → (∀ t, s ≠ .part t) → inWord r (hy s))
    (hc : ss.IsChain AdjRun) (hf : .part [] ∉ ss) : ReflowRuns g atGap inWord (chars ss) (lines.map (Line.text g)) := by
  induction h with
  | blankLine h => cases h
  | lastBlank h => cases h
  | blankAfter _ h => cases h
  | last p h1 _ =>
    simp only [List.map_cons, List.map_nil, Line.text, List.append_nil]
    rw [lineText_chars]
    exact .last _
  | @brk first p s x rest lines h1 h2 h3 h4 h5 ih =>
    have hx : s ≠ .soft → atGap x := by
      intro hns
      rcases h3 with e | ⟨_, e⟩
      · rw [e]; exact hg s (by simp) hns h2
      · rw [e]; exact hg0
    have hx' : s ≠ .gap → x = hy s := by
      intro hng
      rcases h3 with e | ⟨e, _⟩
      · exact e
      · exact absurd e hng
    have hst := layout_starts h5
    have hsuf := startLine_suffix rest
    rw [List.isChain_append] at hc
    obtain ⟨_, hc2, hc3⟩ := hc
    have hfr : .part [] ∉ rest := fun hm => hf (by simp [hm])
    have hi := ih (fun y hy' => hg y (by simp [hsuf.subset hy']))
      (fun v r' y hy' => hin v r' y (hy'.trans (hsuf.isInfix.trans ⟨p ++ [s], [], by simp⟩)))
      ((hc2.tail).suffix hsuf) (fun hm => hfr (hsuf.subset hm))
    simp only [List.map_cons, Line.text]
    rw [lineText_chars, chars_append, chars_cons]
    by_cases hsg : s = .gap
    · subst hsg
      rw [drop_chars hc2 hfr] at hi
      exact .gap _ x (hx (by simp)) hi
    have e0 : symCh s = [] := by
      cases s with
      | part t => exact absurd rfl (h2 t)
      | gap => exact absurd rfl hsg
      | _ => rfl
    rw [e0, List.nil_append]
    cases rest with
    | nil => obtain ⟨t, r, e⟩ := hst; simp [startLine] at e
    | cons z r =>
      rw [List.isChain_cons_cons] at hc2
      rcases run_after hc2.1 h2 with ⟨u, rfl⟩ | ⟨rfl, hns⟩
      · rw [show startLine (.part u :: r) = .part u :: r from rfl] at hi
        obtain ⟨a, u', rfl⟩ := List.exists_cons_of_ne_nil (l := u) (by rintro rfl; exact hfr (by simp))
        obtain ⟨q, y, hq⟩ : ∃ q y, p = q ++ [y] := by
          rcases List.eq_nil_or_concat p with e | ⟨q, y, e⟩
          · obtain ⟨t, r, e'⟩ := h1; rw [e] at e'; cases e'
          · exact ⟨q, y, by rw [e, List.concat_eq_append]⟩
        obtain ⟨v, rfl⟩ := run_before (hc3 y (by rw [hq]; simp) s (by simp)) hsg h2
        obtain ⟨v', b, hv⟩ : ∃ v' b, v = v' ++ [b] := by
          rcases List.eq_nil_or_concat v with e | ⟨q, y, e⟩
          · exfalso; exact hf (by rw [hq, e]; simp)
          · exact ⟨q, y, by rw [e, List.concat_eq_append]⟩
        have e1 : chars p = chars q ++ v'.map Ch.rune ++ [.rune b] := by
          rw [hq, chars_append, chars_cons, hv]
          simp [symCh, chars]
        have e2 : chars (.part (a :: u') :: r) = .rune a :: (u'.map Ch.rune ++ chars r) := by
          rw [chars_cons]; simp [symCh]
        rw [e2] at hi ⊢
        rw [e1]
        have hxi : inWord b x := by
          rw [hx' hsg]
          refine hin v' b s ⟨q, .part (a :: u') :: r, ?_⟩ hsg h2
          rw [hq, hv]; simp
        have := ReflowRuns.inside (g := g) (atGap := atGap) (chars q ++ v'.map Ch.rune) b a x hxi hi
        simpa using this
      · rw [show startLine (.gap :: r) = startLine r from rfl, drop_chars hc2.2 (fun hm => hfr (by simp [hm]))] at hi
        rw [chars_cons]
        exact .gap _ x (hx hns) hi

/-- The last line of a layout holds the end of the symbols. -/
theorem layout_end {hy : Sym → List Rune} {P : Bool → List Sym → Option Sym → Prop} {first : Bool} {ss : List Sym}
    {lines : List Line} (h : Layout hy P false first ss lines) :
    ∃ f p, lines.getLast? = some ⟨p, []⟩ ∧ p <:+ ss ∧ StartsWithPart p ∧ P f p none := by
  induction h with
  | blankLine h => cases h
  | lastBlank h => cases h
  | blankAfter _ h => cases h
  | last p h1 h2 => exact ⟨_, p, rfl, List.suffix_rfl, h1, h2⟩
  | @brk first p s x rest lines h1 h2 h3 h4 h5 ih =>
    obtain ⟨f, q, q1, q2, q3, q4⟩ := ih
    refine ⟨f, q, ?_, q2.trans ((startLine_suffix rest).trans ⟨p ++ [s], by simp⟩), q3, q4⟩
    cases lines with
    | nil => cases q1
    | cons y ys => rw [List.getLast?_cons_cons]; exact q1

theorem para_trailing {sp : Splitter} (hl : sp.Lossless) (ws : List (List Rune)) (u : List Rune) (k : Nat) :
    paraSyms sp (ws ++ u :: List.replicate k []) = paraSyms sp (ws ++ [u]) ++ List.replicate k .gap := by
  have h1 : ∀ k, paraSyms sp (u :: List.replicate k []) = tokenSyms sp u ++ List.replicate k .gap := by
    intro k
    induction k generalizing u with
    | zero => simp [paraSyms]
    | succ k ih =>
      rw [List.replicate_succ, paraSyms, ih [], tokenSyms_nil hl]
      · simp [List.replicate_succ]
      · simp
  have h2 : ∀ w (ts : List (List Rune)), ts ≠ [] → paraSyms sp (w :: ts) = tokenSyms sp w ++ .gap :: paraSyms sp ts := by
    intro w ts hts
    cases ts with
    | nil => exact absurd rfl hts
    | cons a b => rfl
  induction ws with
  | nil => rw [List.nil_append, h1]; rfl
  | cons w ws ih => rw [List.cons_append, List.cons_append, h2 _ _ (by simp), h2 _ _ (by simp), ih]; simp

theorem joined_last (ws : List (List Rune)) {u : List Rune} (hu : u ≠ []) :
    (joined (ws ++ [u])).getLast? = u.getLast?.map Ch.rune := by
  induction ws with
  | nil => simp [joined]
  | cons w ws ih =>
    have hne : ws ++ [u] ≠ [] := by simp
    have e : joined (w :: ws ++ [u]) = w.map Ch.rune ++ .gap :: joined (ws ++ [u]) := by
      rw [List.cons_append]
      cases hw : ws ++ [u] with
      | nil => exact absurd hw hne
      | cons a b => rfl
    have hj : joined (ws ++ [u]) ≠ [] := by
      intro e'
      rw [e'] at ih
      cases hl : u.getLast? with
      | none => exact hu (List.getLast?_eq_none_iff.mp hl)
      | some a => rw [hl] at ih; cases ih
    rw [e, List.getLast?_append_of_ne_nil _ (by simp), List.getLast?_cons_of_ne_nil hj, ih]

theorem chText_last (g : List Rune) {cs : List Ch} {r : Rune} (h : cs.getLast? = some (.rune r)) : (chText g cs).getLast? = some r := by
  obtain ⟨a, rfl⟩ := List.getLast?_eq_some_iff.mp h
  rw [chText_append]
  simp [chText]

section
variable {F : Type} [Arith F] [Laws F] {rt : Runtime} {env : Env} {dict : Dictionary} {opts : List (Opt F)}
  {text : List Rune → Int} {n : Nat} {l l' : LineBreaker F} {tokens : List (List Rune)} {maxWidth : F} {W : Int}
  {lines : List (List Rune)}

/-- **C117.** When the first word is not empty, the lines hold the text of the words, where each empty word gives one more
space: a line ends at a space, where the rest of the run of spaces is dropped, or inside a word. -/
theorem C117_text_kept (c : Call rt env dict opts text n l tokens maxWidth W) (hW : 0 < W) (hf : tokens.head? ≠ some [])
    (h : leftAlignUniform rt env l tokens maxWidth = .ok (some lines, l')) :
    ReflowRuns (List.replicate n 0x20) (fun e => e = [] ∨ e = [0x2D]) (fun _ e => e = [] ∨ e = [0x2D]) (joined tokens) lines := by
  obtain ⟨ls, h1, rfl⟩ := call_lines c hW hf h
  have hl := lossless (env := env) (dict := dict) c.sane
  rw [← para_chars hl tokens]
  exact layout_runs h1 _ (Or.inl rfl) (fun s _ _ _ => hyOf_cases s) (fun _ _ s _ _ _ => hyOf_cases s)
    (para_runs hl tokens) (para_full hl tokens)

/-- **C117.** The last line ends with the last word that has some text, and one space for each empty word after it. These
spaces have to fit on the line. -/
theorem C117_trailing {ws : List (List Rune)} {u : List Rune} {k : Nat}
    (c : Call rt env dict opts text n l (ws ++ u :: List.replicate k []) maxWidth W) (hW : 0 < W)
    (hf : (ws ++ [u]).head? ≠ some []) (hu : u ≠ [])
    (h : leftAlignUniform rt env l (ws ++ u :: List.replicate k []) maxWidth = .ok (some lines, l')) :
    (∃ x, lines.getLast? = some (x ++ List.replicate (k * n) 0x20) ∧ x.getLast? = u.getLast?) ∧ k * text [0x20] ≤ W := by
  have hf' : (ws ++ u :: List.replicate k []).head? ≠ some [] := by
    cases ws <;> simpa using hf
  obtain ⟨ls, h1, rfl⟩ := call_lines c hW hf' h
  have hl := lossless (env := env) (dict := dict) c.sane
  obtain ⟨f, p, p1, p2, p3, p4⟩ := layout_end h1
  rw [para_trailing hl] at p2
  obtain ⟨q, rfl⟩ : ∃ q, p = q ++ List.replicate k .gap := by
    rcases List.suffix_or_suffix_of_suffix p2 (List.suffix_append _ _) with h | ⟨q, h⟩
    · obtain ⟨t, r, rfl⟩ := p3
      have := List.eq_of_mem_replicate (h.subset (by simp : Sym.part t ∈ Sym.part t :: r))
      cases this
    · exact ⟨q, h.symm⟩
  have hq : q <:+ paraSyms (splitterOf env dict (defaultOptions opts)) (ws ++ [u]) := by
    obtain ⟨a, ha⟩ := p2
    rw [← List.append_assoc] at ha
    exact ⟨a, List.append_cancel_right ha⟩
  have hqp : ∃ t r, q = .part t :: r := by
    obtain ⟨t, r, e⟩ := p3
    cases q with
    | nil =>
      cases k with
      | zero => cases e
      | succ k => rw [List.replicate_succ] at e; cases e
    | cons y ys =>
      injection e with e1 e2
      exact ⟨t, ys, by rw [e1]⟩
  obtain ⟨t, r, hqt⟩ := hqp
  refine ⟨⟨lineText (List.replicate n 0x20) q, ?_, ?_⟩, ?_⟩
  · rw [List.getLast?_map, p1]
    have : ∀ k, lineText (List.replicate n 0x20) (List.replicate k .gap) = List.replicate (k * n) 0x20 := by
      intro k
      induction k with
      | zero => simp [lineText]
      | succ k ih => rw [List.replicate_succ, lineText, ih, ← List.replicate_add, Nat.succ_mul, Nat.add_comm]
    simp only [Option.map_some, Line.text, List.append_nil]
    rw [lineText_append, this]
  · obtain ⟨a, ha⟩ := hq
    have hne : chars q ≠ [] := by
      have : t ≠ [] := by
        rintro rfl
        exact para_full hl (ws ++ [u]) (by rw [← ha, hqt]; simp)
      rw [hqt, chars_cons]
      cases t with
      | nil => exact absurd rfl this
      | cons y ys => simp [symCh]
    have hj := joined_last ws hu
    rw [← para_chars hl, ← ha, chars_append, List.getLast?_append_of_ne_nil _ hne] at hj
    cases e : u.getLast? with
    | none => exact absurd (List.getLast?_eq_none_iff.mp e) hu
    | some b =>
      rw [e] at hj
      rw [lineText_chars]
      exact chText_last _ hj
  · have e1 : lineWidth (measureOf (defaultOptions opts) text) (List.replicate k .gap) = k * text [0x20] := by
      rw [lineWidth_gaps _ _ (fun s hs => List.eq_of_mem_replicate hs), List.length_replicate]
      rfl
    have e2 : ∀ q, 0 ≤ lineWidth (measureOf (defaultOptions opts) text) q := by
      intro q
      induction q with
      | nil => simp [lineWidth]
      | cons s a ih =>
        cases s with
        | part t => have := c.sane.nonneg t; simp only [lineWidth]; show 0 ≤ text t + _; omega
        | gap => have := c.sane.nonneg [0x20]; simp only [lineWidth]; show 0 ≤ text [0x20] + _; omega
        | _ => simpa [lineWidth] using ih
    have e3 : lineWidth (measureOf (defaultOptions opts) text) (q ++ List.replicate k .gap) ≤ W := by
      rcases p4 with h | h
      · simp only [endWidth] at h; omega
      · have := h.1; simp only [endWidth] at this; omega
    rw [lineWidth_append, e1] at e3
    have := e2 q
    omega

/-- **C117.** Words followed by more empty ones than there is room for cannot be set. -/
theorem C117_no_room {ws : List (List Rune)} {u : List Rune} {k : Nat}
    (c : Call rt env dict opts text n l (ws ++ u :: List.replicate k []) maxWidth W) (hW : 0 < W)
    (hf : (ws ++ [u]).head? ≠ some []) (hu : u ≠ []) (hk : W < k * text [0x20]) :
    ∃ l', leftAlignUniform rt env l (ws ++ u :: List.replicate k []) maxWidth = .ok (none, l') := by
  have hf' : (ws ++ u :: List.replicate k []).head? ≠ some [] := by
    cases ws <;> simpa using hf
  obtain ⟨l'', h1 | ⟨_, ls, _, h2, _⟩⟩ := call_exact c hW (starts_of_first c (by simp) hf')
  · exact ⟨l'', h1.2⟩
  · have := (C117_trailing c hW hf hu h2).2
    omega

end

/-! ## Cases -/

local instance emptyLaws : Laws Rat := ratLaws (2 ^ 53) (le_refl _)

/-- Words with empty ones among them and at the end. -/
def gappedWords : List String := ["aabb", "", "", "foo", "x,", "", ""]

theorem gapped_call : Call forward Env.ascii (dictOf sampleLines) [unit] demoText 1 (demo []) (gappedWords.map runesOf)
    (Arith.ofInt 6 : Rat) 6 :=
  demo_call forward_walks .new (by decide +kernel) (by decide +kernel)

/-- **C117**, a case: the spaces between the two first words are dropped, and the ones at the end are not. -/
theorem C117_case : ∃ l', leftAlignUniform forward Env.ascii (demo []) (gappedWords.map runesOf) (Arith.ofInt 6) =
      .ok (some (["aabb", "foo", "x,  "].map runesOf), l') ∧
    ReflowRuns [0x20] (fun e => e = [] ∨ e = [0x2D]) (fun _ e => e = [] ∨ e = [0x2D]) (joined (gappedWords.map runesOf))
      (["aabb", "foo", "x,  "].map runesOf) ∧
    ∃ x, (["aabb", "foo", "x,  "].map runesOf).getLast? = some (x ++ List.replicate (2 * 1) 0x20) ∧
      x.getLast? = (runesOf "x,").getLast? := by
  obtain ⟨l', h⟩ : ∃ l', leftAlignUniform forward Env.ascii (demo []) (gappedWords.map runesOf) (Arith.ofInt 6) =
    .ok (some (["aabb", "foo", "x,  "].map runesOf), l') := linesOf_ok (by decide +kernel)
  refine ⟨l', h, C117_text_kept gapped_call (by decide) (by decide +kernel) h, ?_⟩
  exact (C117_trailing (ws := ["aabb", "", "", "foo"].map runesOf) (u := runesOf "x,") (k := 2) gapped_call (by decide)
    (by decide +kernel) (by decide +kernel) h).1

/-- **C117**, a case: a word fits on a line, and does not with an empty word after it. -/
theorem C117_no_room_case :
    linesOf forward (demo []) ["aabb"] 4 = .ok (some [runesOf "aabb"]) ∧ linesOf forward (demo []) ["aabb", ""] 4 = .ok none ∧
    ∃ l', leftAlignUniform forward Env.ascii (demo []) ([] ++ runesOf "aabb" :: List.replicate 5 []) (Arith.ofInt 4) = .ok (none, l') := by
  refine ⟨by decide +kernel, by decide +kernel, ?_⟩
  exact C117_no_room (demo_call forward_walks .new (by decide +kernel) (by decide +kernel)) (by decide) (by decide +kernel)
    (by decide +kernel) (by decide +kernel : (4 : Int) < 5 * demoText [0x20])

end Verif.Props
