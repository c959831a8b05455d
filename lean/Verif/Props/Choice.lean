import Verif.Proofs.LBWalk
import Verif.Proofs.LBPenalty
import Verif.Props.LinebreakCases

/-! # C76–C77, and more on C58: which lines are chosen

Paragraphs that can be set in several ways: which one is returned. See `Verif.Spec.Choice`. -/

set_option linter.unusedSectionVars false

namespace Verif.Props
open Verif.Go Verif.Model Verif.Model.LB Verif.Spec Verif.Spec.Ansi Verif.Spec.LB Verif.Proofs Verif.Proofs.LB

section
variable {F : Type} [Arith F] [Laws F] {rt : Runtime} {env : Env} {dict : Dictionary} {opts : List (Opt F)}
  {text : List Rune → Int} {n : Nat} {l l' : LineBreaker F} {tokens : List (List Rune)} {maxWidth : F} {W : Int}
  {lines : List (List Rune)}

/-! ## C76 -/

/-- **C76.** Each line returned starts as early as it can, given where it ends: the acceptable lines that end
there and are as loose, and that may follow other acceptable lines, do not start earlier. -/
theorem C76_choice (c : Call rt env dict opts text n l tokens maxWidth W) (hW : 0 < W)
    (hf : tokens.head? ≠ some []) (ho : (defaultOptions opts).renderHyphens = true → OwnPenalty (defaultOptions opts))
    (h : leftAlignUniform rt env l tokens maxWidth = .ok (some lines, l')) :
    ∃ ls, lines = ls.map (Line.text (List.replicate n 0x20)) ∧
      Laid (hyphenAt (defaultOptions opts)) (fun f p s rest =>
          Acceptable (measureOf (defaultOptions opts) text) W (Tolerated (defaultOptions opts)) f p s ∧
          Earliest (Acceptable (measureOf (defaultOptions opts) text) W (Tolerated (defaultOptions opts)))
            (looseness F (measureOf (defaultOptions opts) text) W)
            (paraSyms (splitterOf env dict (defaultOptions opts)) tokens) f p s rest)
        true (paraSyms (splitterOf env dict (defaultOptions opts)) tokens) ls := by
  have h0 : tokens ≠ [] := by rintro rfl; rw [align_nil] at h; cases h
  obtain ⟨l'', h1 | ⟨_, ls, _, h2, _, h3⟩⟩ := call_exact c hW (starts_of_first c h0 hf)
  · rw [h1.2] at h; cases h
  · rw [h2] at h
    cases h
    exact ⟨ls, rfl, laid_of_layoutR (fun s hs => hyOf_own ho s hs) rfl h3⟩

/-- **C76.** The last line is as long as it can be, in widths up to 4997: the last line of any acceptable setting
is the end of the last line returned. -/
theorem C76_last_line (c : Call rt env dict opts text n l tokens maxWidth W) (hW : 0 < W) (hnarrow : W ≤ 4997)
    (hf : tokens.head? ≠ some []) (h : leftAlignUniform rt env l tokens maxWidth = .ok (some lines, l'))
    (hy : Sym → List Rune) (ls : List Line)
    (hls : Layout hy (Acceptable (measureOf (defaultOptions opts) text) W (Tolerated (defaultOptions opts))) false true
      (paraSyms (splitterOf env dict (defaultOptions opts)) tokens) ls) :
    ∃ line other, lines.getLast? = some line ∧ (ls.map (Line.text (List.replicate n 0x20))).getLast? = some other ∧
      other <:+ line := by
  have h0 : tokens ≠ [] := by rintro rfl; rw [align_nil] at h; cases h
  obtain ⟨l'', h1 | ⟨_, ls', _, h2, _, h3⟩⟩ := call_exact c hW (starts_of_first c h0 hf)
  · rw [h1.2] at h; cases h
  · rw [h2] at h
    cases h
    obtain ⟨b, b', g1, g2, q, g3⟩ := last_longest (setup_new (env := env) (dict := dict) c.sane) hnarrow h3 hls
    refine ⟨_, _, by rw [List.getLast?_map, g1]; rfl, by rw [List.getLast?_map, g2]; rfl, ?_⟩
    refine ⟨lineText (List.replicate n 0x20) q, ?_⟩
    simp only [Line.text, List.append_nil]
    rw [← g3, lineText_chars, lineText_chars, lineText_chars, chars_append, chText_append]

/-- **C76.** Each line returned is acceptable, starts as early as it can given where it ends, and ends as early as it
can given what is left to set after it, whatever the walk of the map. -/
theorem C76_chosen (c : Call rt env dict opts text n l tokens maxWidth W) (hW : 0 < W)
    (hf : tokens.head? ≠ some []) (ho : (defaultOptions opts).renderHyphens = true → OwnPenalty (defaultOptions opts))
    (h : leftAlignUniform rt env l tokens maxWidth = .ok (some lines, l')) :
    ∃ ls, lines = ls.map (Line.text (List.replicate n 0x20)) ∧
      Laid (hyphenAt (defaultOptions opts))
        (Chosen F (measureOf (defaultOptions opts) text) W (Tolerated (defaultOptions opts))
          (paraSyms (splitterOf env dict (defaultOptions opts)) tokens))
        true (paraSyms (splitterOf env dict (defaultOptions opts)) tokens) ls := by
  have h0 : tokens ≠ [] := by rintro rfl; rw [align_nil] at h; cases h
  obtain ⟨l'', h1 | ⟨ls, h2, h3⟩⟩ := call_chosen c hW (starts_of_first c h0 hf)
  · rw [h1] at h; cases h
  · rw [h2] at h
    cases h
    exact ⟨ls, rfl, laid_of_layoutR (fun s hs => hyOf_own ho s hs) rfl h3⟩

/-- **C76.** Each setting made of such lines is returned for some walk of the map: it is enough that the walks start at
any of the four classes of fitness and go round. -/
theorem C76_every (c : Call rt env dict opts text n l tokens maxWidth W) (hW : 0 < W)
    (hf : tokens.head? ≠ some []) (ho : (defaultOptions opts).renderHyphens = true → OwnPenalty (defaultOptions opts))
    (ls : List Line)
    (hls : Laid (hyphenAt (defaultOptions opts))
        (Chosen F (measureOf (defaultOptions opts) text) W (Tolerated (defaultOptions opts))
          (paraSyms (splitterOf env dict (defaultOptions opts)) tokens))
        true (paraSyms (splitterOf env dict (defaultOptions opts)) tokens) ls) :
    ∃ (rt' : Runtime) (l' : LineBreaker F),
      (∀ i k, ∃ a b, [Class.zero, .one, .two, .three] = a ++ b ∧ rt'.order i k = b ++ a) ∧ rt'.spare = rt.spare ∧
      leftAlignUniform rt' env l tokens maxWidth = .ok (some (ls.map (Line.text (List.replicate n 0x20))), l') := by
  have h0 : tokens ≠ [] := by
    rintro rfl
    generalize hss : paraSyms (splitterOf env dict (defaultOptions opts)) [] = ss at hls
    rw [show paraSyms (splitterOf env dict (defaultOptions opts)) [] = [] from rfl] at hss
    cases hls with
    | last p h => obtain ⟨t, r, e⟩ := h; rw [e] at hss; cases hss
    | brk p s h => obtain ⟨t, r, e⟩ := h; rw [e] at hss; cases hss
  exact call_every c hW (starts_of_first c h0 hf) (fun s hs => hyOf_own ho s hs) rfl ls hls

/-- The walks that start at one of the classes and go round are walks. -/
theorem walks_turned {rt' : Runtime} (h : ∀ i k, ∃ a b, [Class.zero, .one, .two, .three] = a ++ b ∧ rt'.order i k = b ++ a) :
    Walks rt' := by
  intro i k c
  obtain ⟨a, b, h1, h2⟩ := h i k
  have : c ∈ a ++ b := by rw [← h1]; cases c <;> simp
  rw [h2]
  simp only [List.mem_append] at this ⊢
  exact this.symm

/-- **C76, exactly.** The settings returned, over all walks of the map, are those whose lines are acceptable, start as
early as they can and end as early as they can. -/
theorem C76_exactly (c : Call rt env dict opts text n l tokens maxWidth W) (hW : 0 < W)
    (hf : tokens.head? ≠ some []) (ho : (defaultOptions opts).renderHyphens = true → OwnPenalty (defaultOptions opts))
    (lines : List (List Rune)) :
    (∃ rt' l', Walks rt' ∧ leftAlignUniform rt' env l tokens maxWidth = .ok (some lines, l')) ↔
    ∃ ls, lines = ls.map (Line.text (List.replicate n 0x20)) ∧
      Laid (hyphenAt (defaultOptions opts))
        (Chosen F (measureOf (defaultOptions opts) text) W (Tolerated (defaultOptions opts))
          (paraSyms (splitterOf env dict (defaultOptions opts)) tokens))
        true (paraSyms (splitterOf env dict (defaultOptions opts)) tokens) ls := by
  constructor
  · rintro ⟨rt', l', hw, h⟩
    exact C76_chosen ⟨c.used, c.sane, hw, c.digits, c.escapeFree, c.scaled, c.exact⟩ hW hf ho h
  · rintro ⟨ls, rfl, h⟩
    obtain ⟨rt', l', h1, _, h2⟩ := C76_every c hW hf ho ls h
    exact ⟨rt', l', walks_turned h1, h2⟩

/-! ## C58 -/

/-- **C58, exactly.** The result depends neither on the walk of the map nor on earlier calls if and only if all the
settings that may be chosen read the same. -/
theorem C58_exact (c : Call rt env dict opts text n l tokens maxWidth W) (hW : 0 < W)
    (hf : tokens.head? ≠ some []) (ho : (defaultOptions opts).renderHyphens = true → OwnPenalty (defaultOptions opts)) :
    (∀ rt' l₂, Call rt' env dict opts text n l₂ tokens maxWidth W →
      (leftAlignUniform rt' env l₂ tokens maxWidth).map Prod.fst = (leftAlignUniform rt env l tokens maxWidth).map Prod.fst) ↔
    ∀ ls ls' : List Line,
      (∀ k ∈ [ls, ls'], Laid (hyphenAt (defaultOptions opts))
        (Chosen F (measureOf (defaultOptions opts) text) W (Tolerated (defaultOptions opts))
          (paraSyms (splitterOf env dict (defaultOptions opts)) tokens))
        true (paraSyms (splitterOf env dict (defaultOptions opts)) tokens) k) →
      ls.map (Line.text (List.replicate n 0x20)) = ls'.map (Line.text (List.replicate n 0x20)) := by
  constructor
  · intro h ls ls' hk
    obtain ⟨r1, l1, w1, _, e1⟩ := C76_every c hW hf ho ls (hk _ (by simp))
    obtain ⟨r2, l2, w2, _, e2⟩ := C76_every c hW hf ho ls' (hk _ (by simp))
    have g1 := h r1 l ⟨c.used, c.sane, walks_turned w1, c.digits, c.escapeFree, c.scaled, c.exact⟩
    have g2 := h r2 l ⟨c.used, c.sane, walks_turned w2, c.digits, c.escapeFree, c.scaled, c.exact⟩
    rw [e1] at g1
    rw [e2, ← g1] at g2
    simp only [Except.map, Except.ok.injEq, Option.some.injEq] at g2
    exact g2.symm
  · intro h rt' l₂ c'
    by_cases h0 : tokens = []
    · subst h0; rw [align_nil, align_nil]; rfl
    obtain ⟨l1, a1⟩ := call_exact c hW (starts_of_first c h0 hf)
    obtain ⟨l2, a2⟩ := call_exact c' hW (starts_of_first c' h0 hf)
    rcases a1 with ⟨s1, e1⟩ | ⟨s1, k1, _, e1, _⟩ <;> rcases a2 with ⟨s2, e2⟩ | ⟨s2, k2, _, e2, _⟩
    · rw [e1, e2]; rfl
    · exact absurd s2 s1
    · exact absurd s1 s2
    · obtain ⟨m1, f1, d1⟩ := C76_chosen c hW hf ho e1
      obtain ⟨m2, f2, d2⟩ := C76_chosen c' hW hf ho e2
      rw [e1, e2, f1, f2, h m1 m2 (by simp [d1, d2])]
      rfl

/-- **C58**, with a tolerance of at most one half (see `C58_walk_fails` for larger ones): the result depends
neither on the walk of the map, nor on earlier calls. -/
theorem C58_tight_partial {rt' : Runtime} {l₂ : LineBreaker F} (c : Call rt env dict opts text n l tokens maxWidth W)
    (c' : Call rt' env dict opts text n l₂ tokens maxWidth W) (hW : 0 < W) (hf : tokens.head? ≠ some [])
    (ht : Arith.le (defaultOptions opts).tolerance (Arith.tenths 5) = true) :
    (leftAlignUniform rt env l tokens maxWidth).map Prod.fst = (leftAlignUniform rt' env l₂ tokens maxWidth).map Prod.fst := by
  by_cases h0 : tokens = []
  · subst h0; rw [align_nil, align_nil]; rfl
  rw [C61_reuse_partial rt c.digits c.used tokens c.escapeFree, C61_reuse_partial rt' c.digits c'.used tokens c.escapeFree]
  have hsy : syms (parBlocks (splitterOf env dict (defaultOptions opts)) (tokens.map bare)) =
      paraSyms (splitterOf env dict (defaultOptions opts)) tokens := by
    rw [parBlocks_bare, syms_paraBlocks]
  have hs := setup_new (env := env) (dict := dict) c.sane
  have hu := usual_new (env := env) (dict := dict) c.sane
  rw [align_walks c.walks c'.walks (splits_new c.sane) hs tokens _ (strips_all rt c.digits tokens c.escapeFree)
    (strips_all rt' c.digits tokens c.escapeFree) h0 [] rfl maxWidth W c.scaled hW hu.tol (hu.tame hs)
    (by rw [hsy]; exact starts_of_first c h0 hf) (by rw [hsy]; exact c.exact) ht]

/-! ## C77 -/

omit [Laws F] in
theorem new_penalty (env : Env) (dict : Dictionary) (opts : List (Opt F)) (x : F) :
    (new env dict (opts ++ [.hyphenPenalty x]) : LineBreaker F) =
      { (new env dict opts : LineBreaker F) with hyphenPenalty := x, demeritsFlagged := x } := by
  have : defaultOptions (opts ++ [.hyphenPenalty x]) = { defaultOptions opts with hyphenPenalty := x, demeritsFlagged := x } := by
    unfold defaultOptions
    rw [List.foldl_append]
    rfl
  unfold new
  rw [this]
  generalize defaultOptions opts = o
  rfl

/-- **C77.** The penalty of hyphens does not change the lines: two line breakers made with the same options but for
this penalty give the same result. -/
theorem C77_penalty_ignored {l₂ : LineBreaker F} {x : F} (c : Call rt env dict opts text n l tokens maxWidth W)
    (c' : Call rt env dict (opts ++ [.hyphenPenalty x]) text n l₂ tokens maxWidth W) (hW : 0 < W)
    (hf : tokens.head? ≠ some []) (ho : (defaultOptions opts).renderHyphens = true → OwnPenalty (defaultOptions opts))
    (ho' : (defaultOptions opts).renderHyphens = true → OwnPenalty (defaultOptions (opts ++ [.hyphenPenalty x]))) :
    (leftAlignUniform rt env l tokens maxWidth).map Prod.fst = (leftAlignUniform rt env l₂ tokens maxWidth).map Prod.fst := by
  by_cases h0 : tokens = []
  · subst h0; rw [align_nil, align_nil]; rfl
  rw [C61_reuse_partial rt c.digits c.used tokens c.escapeFree, C61_reuse_partial rt c.digits c'.used tokens c.escapeFree]
  have hd : defaultOptions (opts ++ [.hyphenPenalty x]) = { defaultOptions opts with hyphenPenalty := x, demeritsFlagged := x } := by
    unfold defaultOptions
    rw [List.foldl_append]
    rfl
  have hsp : splitterOf env dict (defaultOptions (opts ++ [.hyphenPenalty x])) = splitterOf env dict (defaultOptions opts) := by
    rw [hd]; rfl
  have hm : measureOf (defaultOptions (opts ++ [.hyphenPenalty x])) text = measureOf (defaultOptions opts) text := by
    rw [hd]; rfl
  have hsy : syms (parBlocks (splitterOf env dict (defaultOptions opts)) (tokens.map bare)) =
      paraSyms (splitterOf env dict (defaultOptions opts)) tokens := by
    rw [parBlocks_bare, syms_paraBlocks]
  have hs := setup_new (env := env) (dict := dict) c.sane
  have hs' := setup_new (env := env) (dict := dict) c'.sane
  have hu := usual_new (env := env) (dict := dict) c.sane
  have hu' := usual_new (env := env) (dict := dict) c'.sane
  rw [hm] at hs'
  have hsplit' := splits_new (env := env) (dict := dict) c'.sane
  rw [hsp] at hsplit'
  have hn := new_penalty env dict opts x
  refine align_penalty c.walks (splits_new c.sane) hsplit' hs hs' (by rw [hn]) (by rw [hn]) (by rw [hn]) (fun e => ?_) (fun e => ?_)
    tokens _ (strips_all rt c.digits tokens c.escapeFree) h0 [] rfl rfl maxWidth W c.scaled hW hu.tol hu'.tol (hu.tame hs)
    (hu'.tame hs') (by rw [hsy]; exact starts_of_first c h0 hf) (by rw [hsy]; exact c.exact)
  · obtain ⟨a, b, d, e⟩ := ho e
    exact ⟨a, b, d, e⟩
  · obtain ⟨a, b, d, e⟩ := ho' e
    exact ⟨a, b, d, e⟩

end

/-! ## Cases -/

/-- The laws of the rationals. -/
local instance choiceLaws : Laws Rat := ratLaws (2 ^ 53) (le_refl _)

/-- The last line `yyy,` of the demonstration is as long as it can be. -/
example (ls : List Line) (h : Layout (fun _ => []) (Acceptable (measureOf (defaultOptions [unit]) demoText) 5
      (Tolerated (defaultOptions [unit]))) false true
      (paraSyms (splitterOf Env.ascii (dictOf sampleLines) (defaultOptions [unit])) (demoWords.map runesOf)) ls) :
    ∃ other, (ls.map (Line.text [0x20])).getLast? = some other ∧ other <:+ runesOf "yyy," := by
  obtain ⟨l', h'⟩ := demo_run
  obtain ⟨line, other, h1, h2, h3⟩ :=
    C76_last_line (demo_words forward_walks) (by decide) (by decide) (by decide +kernel) h' _ ls h
  have : line = runesOf "yyy," := by
    have e : (["aa-", "bbdcc", "x,", "yyy,"].map runesOf).getLast? = some (runesOf "yyy,") := by decide +kernel
    rw [e] at h1
    exact (Option.some.inj h1).symm
  exact ⟨other, h2, this ▸ h3⟩

example : ∃ ls, ["aa-", "bbdcc", "x,", "yyy,"].map runesOf = ls.map (Line.text [0x20]) ∧
    Laid (hyphenAt (defaultOptions [unit])) (fun f p s rest =>
        Acceptable (measureOf (defaultOptions [unit]) demoText) 5 (Tolerated (defaultOptions [unit])) f p s ∧
        Earliest (Acceptable (measureOf (defaultOptions [unit]) demoText) 5 (Tolerated (defaultOptions [unit])))
          (looseness Rat (measureOf (defaultOptions [unit]) demoText) 5)
          (paraSyms (splitterOf Env.ascii (dictOf sampleLines) (defaultOptions [unit])) (demoWords.map runesOf)) f p s rest)
      true (paraSyms (splitterOf Env.ascii (dictOf sampleLines) (defaultOptions [unit])) (demoWords.map runesOf)) ls := by
  obtain ⟨l', h'⟩ := demo_run
  exact C76_choice (demo_words forward_walks) (by decide) (by decide +kernel) (fun _ => own_demo) h'

theorem sane_tight : Sane (defaultOptions [unit, .tolerance (1 / 2)]) demoText 1 := by
  refine sane_unscaled rfl (fun t => ?_) (fun t => Int.natCast_nonneg _) rfl (by decide) ?_ ?_ ?_ ?_ rfl rfl
  · show ((t.length : Nat) : Rat) = (((t.length : Nat) : Int) : Rat)
    simp
  · exact within_int 300 10000 (by decide) (by decide) (by decide)
  · decide +kernel
  · decide +kernel
  · exact ⟨by decide +kernel, by decide +kernel⟩

theorem sane_dear : Sane (defaultOptions ([unit] ++ [.hyphenPenalty (Arith.ofInt 2000)])) demoText 1 := by
  refine sane_unscaled rfl (fun t => ?_) (fun t => Int.natCast_nonneg _) rfl (by decide) ?_ ?_ ?_ ?_ rfl rfl
  · show ((t.length : Nat) : Rat) = (((t.length : Nat) : Int) : Rat)
    simp
  · exact within_int 2000 10000 (by decide) (by decide) (by decide)
  · decide +kernel
  · decide +kernel
  · exact ⟨by decide +kernel, by decide +kernel⟩

def tightWords : List String := ["aaaa", "bbbb", "cccccccc", "dd", "eee", "aabbdcc"]

theorem tight_words {rt : Runtime} (hw : Walks rt) {l : LineBreaker Rat}
    (hu : Used Env.ascii (dictOf sampleLines) [unit, .tolerance (1 / 2)] l) :
    Call rt Env.ascii (dictOf sampleLines) [unit, .tolerance (1 / 2)] demoText 1 l (tightWords.map runesOf) (Arith.ofInt 10 : Rat) 10 := by
  have h : ∀ t ∈ tightWords.map runesOf, (t.length : Int) < 2 ^ 63 ∧ (0x1B : Rune) ∉ t := by decide +kernel
  exact ⟨hu, sane_tight, hw, digits_ascii, fun t ht => escapeFree_of (h t ht).1 (h t ht).2, by decide +kernel, by decide +kernel⟩

theorem loose_words {rt : Runtime} (hw : Walks rt) {l : LineBreaker Rat}
    (hu : Used Env.ascii (dictOf sampleLines) [unit] l) :
    Call rt Env.ascii (dictOf sampleLines) [unit] demoText 1 l (tightWords.map runesOf) (Arith.ofInt 10 : Rat) 10 := by
  have h : ∀ t ∈ tightWords.map runesOf, (t.length : Int) < 2 ^ 63 ∧ (0x1B : Rune) ∉ t := by decide +kernel
  exact ⟨hu, (demo_words forward_walks).sane, hw, digits_ascii, fun t ht => escapeFree_of (h t ht).1 (h t ht).2, by decide +kernel, by decide +kernel⟩

/-- The lines of the forward walk are those of the backward walk; with the default tolerance, they differ. -/
example : linesOf forward (demo [.tolerance (1 / 2)]) tightWords 10 = linesOf backward (demo [.tolerance (1 / 2)]) tightWords 10 ∧
    linesOf backward (demo [.tolerance (1 / 2)]) tightWords 10 =
      .ok (some (["aaaa bbbb", "cccccccc", "dd eee aa-", "bbdcc"].map runesOf)) ∧
    linesOf forward (demo []) tightWords 10 ≠ linesOf backward (demo []) tightWords 10 :=
  ⟨C58_tight_partial (tight_words forward_walks .new) (tight_words backward_walks .new) (by decide) (by decide +kernel)
    (by decide +kernel), by decide +kernel, by decide +kernel⟩

/-- A penalty of 2000 on hyphens does not change the lines. -/
example : linesOf forward (demo [.hyphenPenalty (Arith.ofInt 2000)]) demoWords 5 =
    .ok (some (["aa-", "bbdcc", "x,", "yyy,"].map runesOf)) := by
  obtain ⟨l', h⟩ := demo_run
  have hq : ∀ t ∈ demoWords.map runesOf, (t.length : Int) < 2 ^ 63 ∧ (0x1B : Rune) ∉ t := by decide +kernel
  have := C77_penalty_ignored (demo_words forward_walks)
    (l₂ := demo [.hyphenPenalty (Arith.ofInt 2000)]) (x := Arith.ofInt 2000)
    ⟨.new, sane_dear, forward_walks, digits_ascii, fun t ht => escapeFree_of (hq t ht).1 (hq t ht).2, by decide +kernel, by decide +kernel⟩
    (by decide) (by decide +kernel) (fun _ => own_demo)
    (fun _ => ⟨by decide +kernel, by decide +kernel, by decide +kernel, by decide +kernel⟩)
  rw [h] at this
  exact this.symm

/-- With the default tolerance the demonstration may be set in two ways: the two settings may be chosen, and each is
returned for walks that start at one of the classes and go round. -/
theorem two_walks : ∃ ls ls' : List Line,
    ls.map (Line.text [0x20]) ≠ ls'.map (Line.text [0x20]) ∧
    ∀ k ∈ [ls, ls'], Laid (hyphenAt (defaultOptions [unit])) (Chosen Rat (measureOf (defaultOptions [unit]) demoText) 10
        (Tolerated (defaultOptions [unit]))
        (paraSyms (splitterOf Env.ascii (dictOf sampleLines) (defaultOptions [unit])) (tightWords.map runesOf)))
      true (paraSyms (splitterOf Env.ascii (dictOf sampleLines) (defaultOptions [unit])) (tightWords.map runesOf)) k := by
  by_contra hno
  have := (C58_exact (loose_words forward_walks .new) (by decide) (by decide +kernel) (fun _ => own_demo)).mpr (by
    intro ls ls' hk
    by_contra hne
    exact hno ⟨ls, ls', hne, hk⟩) backward (demo []) (loose_words backward_walks .new)
  exact (show linesOf forward (demo []) tightWords 10 ≠ linesOf backward (demo []) tightWords 10 by decide +kernel) this.symm

example : ∃ rt₁ rt₂ : Runtime,
    (∀ rt' ∈ [rt₁, rt₂], ∀ i k, ∃ a b, [Class.zero, .one, .two, .three] = a ++ b ∧ rt'.order i k = b ++ a) ∧
    linesOf rt₁ (demo []) tightWords 10 ≠ linesOf rt₂ (demo []) tightWords 10 := by
  obtain ⟨ls, ls', hne, hk⟩ := two_walks
  obtain ⟨r1, l1, w1, _, e1⟩ := C76_every (loose_words forward_walks .new) (by decide) (by decide +kernel) (fun _ => own_demo)
    ls (hk _ (by simp))
  obtain ⟨r2, l2, w2, _, e2⟩ := C76_every (loose_words forward_walks .new) (by decide) (by decide +kernel) (fun _ => own_demo)
    ls' (hk _ (by simp))
  refine ⟨r1, r2, by simp only [List.mem_cons, List.not_mem_nil, or_false]; rintro rt' (rfl | rfl) <;> assumption, ?_⟩
  intro e
  have e : (leftAlignUniform r1 Env.ascii (new Env.ascii (dictOf sampleLines) [unit]) (tightWords.map runesOf) (Arith.ofInt 10 : Rat)).map Prod.fst =
      (leftAlignUniform r2 Env.ascii (new Env.ascii (dictOf sampleLines) [unit]) (tightWords.map runesOf) (Arith.ofInt 10 : Rat)).map Prod.fst := e
  rw [e1, e2] at e
  simp only [Except.map, Except.ok.injEq, Option.some.injEq] at e
  exact hne e

end Verif.Props
