import Verif.Proofs.Kept
import Verif.Props.Written

/-! # C107: what a line breaker keeps, and the work of rendering -/

namespace Verif.Props
open Verif.Go Verif.Model Verif.Model.LB Verif.Spec Verif.Spec.Ansi Verif.Spec.LB Verif.Proofs Verif.Proofs.LB

section
variable {F : Type} [Arith F] {rt : Runtime} {env : Env} {l l' : LineBreaker F} {tokens lines : List (List Rune)} {maxWidth : F}

/-- **C107.** The function that counts its rounds has the same results as render. -/
theorem C107_counted (l : Options F) (attrs : AState) (nodes : List (Node F)) (breakList : List (Point F)) :
    (renderC l attrs nodes breakList).res = render l attrs nodes breakList := renderC_res l attrs nodes breakList

/-- **C107.** Whatever the options, the words and the calls before, the lines are rendered in at most
`n (10 p + 6 t + 4 k + 2) + r` rounds: for `n` lines with `r` runes in all, `t` words, `p` renderers added to those kept
and `k` kept after the call. -/
theorem C107_work (h : leftAlignUniform rt env l tokens maxWidth = .ok (some lines, l')) :
    renderSteps rt env l tokens maxWidth ≤
      lines.length * (10 * (l'.attrList.length - l.attrList.length) + 6 * tokens.length + 4 * l'.attrList.length + 2) +
        lines.flatten.length := by
  obtain ⟨ns, attrs, chain, h1, rfl, h2, h3, h4⟩ := align_rendered h
  obtain ⟨k1, k2⟩ := nodes_kept h1
  obtain ⟨r1, r2⟩ := renderC_steps _ _ _ _ _ h3
  rw [h4]
  refine r2.trans (Nat.add_le_add_right (Nat.mul_le_mul_left _ ?_) _)
  simp only
  omega

end

section
variable {F : Type} [Arith F] [Laws F] {rt : Runtime} {env : Env} {dict : Dictionary} {opts : List (Opt F)}
  {text : List Rune → Int} {n : Nat} {l l' : LineBreaker F} {tokens lines : List (List Rune)} {tks : List (List Span)}
  {maxWidth : F} {H : List Piece}

/-- **C107.** The renderers kept are those of the pieces of all calls, in their order: none is ever dropped. -/
theorem C107_kept (hs : Sane (defaultOptions opts) text n) (hh : AnyHist env dict opts l H) :
    l.attrList.map (fun a => (⟨a.text, a.start, a.stop⟩ : Piece)) = H := by
  rw [(hist_keeps hs hh).list]
  suffices ∀ d, (lv d H).map (fun a => (⟨a.text, a.start, a.stop⟩ : Piece)) = H from this 0
  clear hh
  induction H with
  | nil => intro d; rfl
  | cons p r ih => intro d; simp [lv, ih]

/-- **C107.** The time of a call depends on the calls before: if no style is ever closed, and the first piece opens one,
rendering the lines takes at least one round for each piece of the calls before. -/
theorem C107_history (hs : Sane (defaultOptions opts) text n) (hh : AnyHist env dict opts l H)
    (hf : List.Forall₂ (Found rt env) tokens tks)
    (hstop : ∀ p ∈ H ++ styledPieces (splitterOf env dict (defaultOptions opts)) tks, p.stop = [])
    (hstart : ∃ p ∈ (H ++ styledPieces (splitterOf env dict (defaultOptions opts)) tks).head?, p.start ≠ [])
    (hr : leftAlignUniform rt env l tokens maxWidth = .ok (some lines, l')) :
    H.length ≤ renderSteps rt env l tokens maxWidth := by
  obtain ⟨ns, attrs, chain, h1, h5, h2, h3, h4⟩ := align_rendered hr
  have hk := hist_keeps hs (AnyHist.call rt tokens tks maxWidth _ hh hf hr)
  have hk0 := hist_keeps hs hh
  have e : attrs = lv 0 (H ++ styledPieces (splitterOf env dict (defaultOptions opts)) tks) := by
    rw [← hk.list, h5]
  subst e
  have hb := (nodes_kept h1).1
  rw [hk0.list, lv_length, lv_length, List.length_append] at hb
  rw [h4]
  exact renderC_open _ hstop hstart ns (by omega) chain (chain_length h2) lines h3

/-- **C107.** Setting the same text again and again: if its first piece opens a style that is never closed, the call after
`k` others takes at least `k` times as many rounds as there are pieces. So no bound in the text and the width alone
exists. -/
theorem C107_slower {W : Int} (c : AnyCall rt env dict opts text n (new env dict opts) [] tokens tks maxWidth W) (hW : 0 < W)
    (hr : leftAlignUniform rt env (new env dict opts) tokens maxWidth = .ok (some lines, l'))
    (hstop : ∀ p ∈ styledPieces (splitterOf env dict (defaultOptions opts)) tks, p.stop = [])
    (hstart : ∃ p ∈ (styledPieces (splitterOf env dict (defaultOptions opts)) tks).head?, p.start ≠ []) (k : Nat) :
    ∃ l, AnyHist env dict opts l (List.replicate k (styledPieces (splitterOf env dict (defaultOptions opts)) tks)).flatten ∧
      k * (styledPieces (splitterOf env dict (defaultOptions opts)) tks).length ≤ renderSteps rt env l tokens maxWidth := by
  have hset := (C93_no_panic_partial c hW).2.mp ⟨lines, l', hr⟩
  have step : ∀ {l : LineBreaker F} {H : List Piece}, AnyHist env dict opts l H →
      ∃ lines l', leftAlignUniform rt env l tokens maxWidth = .ok (some lines, l') := by
    intro l H hh
    obtain ⟨seqs, hu⟩ := hist_used hh
    exact (C93_no_panic_partial { c with used := hu } hW).2.mpr hset
  generalize hP : styledPieces (splitterOf env dict (defaultOptions opts)) tks = P at *
  have hist : ∃ l, AnyHist env dict opts l (List.replicate k P).flatten := by
    induction k with
    | zero => exact ⟨_, .new⟩
    | succ k ih =>
      obtain ⟨l, hh⟩ := ih
      obtain ⟨lines, l', h⟩ := step hh
      refine ⟨l', ?_⟩
      rw [List.replicate_succ', List.flatten_append, List.flatten_singleton, ← hP]
      exact .call rt tokens tks maxWidth _ (hP ▸ hh) c.found h
  obtain ⟨l, hh⟩ := hist
  obtain ⟨lines, l', h⟩ := step hh
  refine ⟨l, hh, ?_⟩
  have e : (List.replicate k P).flatten.length = k * P.length := by simp
  rw [← e]
  refine C107_history c.sane hh c.found ?_ ?_ h
  · intro p hp
    rw [hP] at hp
    rcases List.mem_append.mp hp with h1 | h1
    · obtain ⟨q, h2, h3⟩ := List.mem_flatten.mp h1
      rw [(List.mem_replicate.mp h2).2] at h3
      exact hstop p h3
    · exact hstop p h1
  · obtain ⟨p, h1, h2⟩ := hstart
    refine ⟨p, ?_, h2⟩
    rw [hP]
    cases k with
    | zero => exact h1
    | succ k =>
      rw [List.replicate_succ, List.flatten_cons, List.append_assoc]
      cases P with
      | nil => cases h1
      | cons q r => exact h1

end

/-! ## Cases -/

local instance keptLaws : Laws Rat := ratLaws (2 ^ 53) (le_refl _)

/-- Two words in bold; the style is not reset. -/
def openWords : List (List Rune) := ["\x1b[1maaaa", "bbbb"].map runesOf

def openSpans : List (List Span) := [[⟨runesOf "\x1b[1m", runesOf "aaaa", []⟩], [⟨[], runesOf "bbbb", []⟩]]

theorem open_call : AnyCall forward Env.ascii (dictOf sampleLines) [unit] demoText 1 (demo []) [] openWords openSpans
    (Arith.ofInt 4 : Rat) 4 :=
  ⟨.new, sane_demo, forward_walks, digits_ascii, .cons (found_run (by decide +kernel)) (.cons (found_run (by decide +kernel)) .nil),
    ⟨_, rfl, _, List.mem_cons_self, by decide +kernel⟩, demo_scaled 4, by decide +kernel⟩

theorem open_run : ∃ l', leftAlignUniform forward Env.ascii (demo []) openWords (Arith.ofInt 4 : Rat) =
    .ok (some (["\x1b[1m\x1b[1maaaa", "\x1b[1mbbbb"].map runesOf), l') :=
  linesOf_ok (by decide +kernel)

/-- The call after `k` others takes at least `2 k` rounds to render its two lines. -/
example (k : Nat) : ∃ l : LineBreaker Rat, AnyHist Env.ascii (dictOf sampleLines) [unit] l
      (List.replicate k [⟨runesOf "aaaa", runesOf "\x1b[1m", []⟩, ⟨runesOf "bbbb", [], []⟩]).flatten ∧
    k * 2 ≤ renderSteps forward Env.ascii l openWords (Arith.ofInt 4 : Rat) := by
  obtain ⟨l', h⟩ := open_run
  have e : styledPieces (splitterOf Env.ascii (dictOf sampleLines) (defaultOptions [unit])) openSpans =
      [⟨runesOf "aaaa", runesOf "\x1b[1m", []⟩, ⟨runesOf "bbbb", [], []⟩] := by decide +kernel
  have := C107_slower open_call (by decide) h (by rw [e]; decide +kernel) (by rw [e]; exact ⟨_, rfl, by decide +kernel⟩) k
  rw [e] at this
  exact this

/-- The first call takes 25 rounds. -/
theorem open_steps : renderSteps forward Env.ascii (demo []) openWords (Arith.ofInt 4 : Rat) = 25 := by decide +kernel

end Verif.Props
